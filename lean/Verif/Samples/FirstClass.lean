import Verif.Samples.FirstProps
import Verif.Samples.DSFMTDCExample

/-!
# C115: the searches of the parameter programs return the first set that qualifies
-/

namespace MTT.MTDC

open Polynomial PIS Search MTRec

variable {n r : ℕ} {mps : MPS} {prim : ℕ → (ZMod 2)[X] → Option Bool}

/-- **C115 for `MT32Search`.** -/
theorem start_first (hm : MinPolySeqSpec mps) {mexp : ℕ} (hprim : PrimOK prim mexp) (he : mexp + r = 32 * n) (hr : r < 32)
    (hn : 3 ≤ n) (id : ℤ) (b c : BitVec 32) (st : Search.St St (ℕ → BitVec 32)) (hs : SInv n r id st.rand)
    (hb : st.rand.maskb = b) (hc : st.rand.maskc = c) (N : ℕ) :
    (∀ m < N, Qualifies (searchOps mexp) (SInv n r id) par (den n r) (cand n id b c (from_ st.src (2 * m))) →
      (∀ i < m, ¬ Qualifies (searchOps mexp) (SInv n r id) par (den n r) (cand n id b c (from_ st.src (2 * i)))) →
      ∃ st', start mps (searchOps mexp) prim N st = .ret true st' ∧
        st'.rand.pos = (st.src (2 * m)).toNat % (n - 2) + 2 ∧
        st'.rand.mata = (if 0 ≤ id then (st.src (2 * m + 1) &&& 0xffff0000) ||| (BitVec.ofInt 32 id &&& 0xffff)
          else st.src (2 * m + 1)) ∧
        st'.count = st.count + m + 1 ∧ ∀ k, st'.src k = st.src (2 * (m + 1) + k)) ∧
    ((∀ i < N, ¬ Qualifies (searchOps mexp) (SInv n r id) par (den n r) (cand n id b c (from_ st.src (2 * i)))) →
      ∃ st', start mps (searchOps mexp) prim N st = .ret false st' ∧ st'.count = st.count + N ∧
        ∀ k, st'.src k = st.src (2 * N + k)) := by
  obtain ⟨h1, h2⟩ := Search.start_first hm (family he hr hn id) hprim (draws (mexp := mexp) hn id b c) st hs
    ⟨hs.inv.size, hs.id, hb, hc, hs.rev⟩ N
  refine ⟨fun m hmN hA hno => ?_, fun hno => ?_⟩
  · obtain ⟨st', j1, j2, j3, j4, -⟩ := h1 m hmN hA hno
    exact ⟨st', j1, congrArg Par.pos j2, congrArg Par.mata j2, j3, fun k => by rw [j4]; rfl⟩
  · obtain ⟨st', j1, j3, j4, -⟩ := h2 hno
    exact ⟨st', j1, j3, fun k => by rw [j4]; rfl⟩

/-- If the highest bit of `mata` is 0, some state that is not zero becomes zero. -/
theorem singular {p : Par} (hn : 3 ≤ n) (hr : r < 32) (h2 : 2 ≤ p.pos) (hpn : p.pos < n) (ha : p.mata.getLsbD 31 = false) :
    ∃ z : S n r, z ≠ 0 ∧ T n r p z = 0 := by
  have hP : (rec n r p).OK := ⟨by show 1 ≤ p.pos; omega, hpn, hr⟩
  obtain ⟨y, hy⟩ : ∃ y : BitVec 32, y = p.mata <<< 1 ||| 1 := ⟨_, rfl⟩
  have h0 : y.getLsbD 0 = true := by rw [hy]; simp
  have h1 : y >>> 1 = p.mata := by
    rw [hy]
    apply BitVec.eq_of_getLsbD_eq
    intro i hi
    rw [BitVec.getLsbD_ushiftRight, BitVec.getLsbD_or, BitVec.getLsbD_shiftLeft]
    have : (1 : BitVec 32).getLsbD (1 + i) = false := by
      rw [show (1 : BitVec 32) = BitVec.ofNat 32 1 from rfl, BitVec.getLsbD_ofNat, Nat.add_comm, Nat.testBit_succ]
      simp
    rw [this, Bool.or_false]
    by_cases h : i = 31
    · rw [h, ha]; simp
    · simp [show 1 + i < 32 by omega]
  have ht : twist p.mata y = 0 := by
    unfold twist
    rw [if_pos h0, h1, BitVec.xor_self]
    rfl
  let x : ℕ → BitVec 32 := fun k => if k = 0 then y else if k = 1 then y &&& ~~~ upper 32 r else 0
  have hj : join r (x 0) (x (0 + 1)) = y := by
    show (y &&& upper 32 r) ||| (y &&& ~~~ upper 32 r &&& ~~~ upper 32 r) = y
    apply BitVec.eq_of_getLsbD_eq
    intro i hi
    simp only [BitVec.getLsbD_or, BitVec.getLsbD_and, BitVec.getLsbD_not, hi, decide_true, Bool.true_and]
    cases y.getLsbD i <;> cases (upper 32 r).getLsbD i <;> rfl
  have hx0 : ∀ k, 2 ≤ k → x k = 0 := fun k hk => by
    show (if k = 0 then y else if k = 1 then _ else 0) = 0
    rw [if_neg (by omega), if_neg (by omega)]
  refine ⟨seqState (rec n r p) x 0, fun hz => ?_, ?_⟩
  · have e1 : hi r y = 0 := congrArg (fun q : State (rec n r p) => q.1.val) hz
    have e2 : y &&& ~~~ upper 32 r = 0 := congrArg (fun q : State (rec n r p) => (q.2 ⟨0, by show 0 < n - 1; omega⟩).val) hz
    have := and_split r y e1 e2
    rw [this] at h0
    cases h0
  · have e := T_seqState' hP (x := x) 0 (by
      show x (0 + n) = x (0 + p.pos) ^^^ twist p.mata (join r (x 0) (x (0 + 1)))
      rw [hj, ht, hx0 _ (by omega), hx0 _ (by omega)]
      rfl)
    refine (show T n r p (seqState (rec n r p) x 0) = seqState (rec n r p) x (0 + 1) from e).trans ?_
    refine Prod.ext ?_ ?_
    · show Wd.of (hi r (y &&& ~~~ upper 32 r)) = Wd.of 0
      congr 1
      apply BitVec.eq_of_getLsbD_eq
      intro i hi'
      rw [hi_bit, BitVec.getLsbD_and, BitVec.getLsbD_not, upper_bit]
      simp
    · funext j
      show Wd.of (x (0 + 1 + 1 + j)) = Wd.of 0
      rw [hx0 _ (by omega)]

/-- A set whose `mata` has the highest bit 0 is never taken. -/
theorem top_bit {mexp : ℕ} (he : mexp + r = 32 * n) (hr : r < 32) (hn : 3 ≤ n) (id : ℤ) {p : Par} (h2 : 2 ≤ p.pos) (hpn : p.pos < n)
    (hq : Qualifies (searchOps mexp) (SInv n r id) par (den n r) p) : p.mata.getLsbD 31 = true := by
  by_contra ha
  obtain ⟨z, z1, z2⟩ := singular hn hr h2 hpn (by simpa using ha)
  obtain ⟨q1, s, q2, q3, -⟩ := hq
  have F := family he hr hn id
  have hx := seed_ne_zero q2.inv
  have hsi := F.seed_inv _ q2
  have hsp : par (seed 1 s) = p := (F.seed_par _ q2).trans q3
  have hper : ∀ k, (T n r p ^ k) (den n r (seed 1 s)) = den n r (seed 1 s) ↔ 2 ^ mexp - 1 ∣ k := fun k => by
    rw [← (stateAt_spec (F.lin p) (g := seed 1 s) ⟨hsi, hsp⟩ k).2]
    exact q1 _ hsi hsp hx k
  obtain ⟨k, -, hk⟩ := orbit_all (T := T n r p) F.pos F.dim hx hper z1
  have h3 : (T n r p ^ (k + 1)) (den n r (seed 1 s)) = 0 := by
    rw [pow_succ', Module.End.mul_apply, hk, z2]
  have h4 : (T n r p ^ ((2 ^ mexp - 1) * (k + 1))) (den n r (seed 1 s)) = 0 := by
    have hp : 1 ≤ 2 ^ mexp - 1 := by
      have : 2 ^ 1 ≤ 2 ^ mexp := Nat.pow_le_pow_right (by omega) (by omega)
      omega
    obtain ⟨d, hd⟩ : ∃ d, (2 ^ mexp - 1) * (k + 1) = d + (k + 1) := ⟨(2 ^ mexp - 1 - 1) * (k + 1), by
      rw [← Nat.succ_mul]
      congr 1
      omega⟩
    rw [hd, pow_add, Module.End.mul_apply, h3, map_zero]
  rw [(hper _).2 (Dvd.intro _ rfl)] at h4
  exact hx h4

/-- Parameters with a primitive characteristic polynomial qualify. -/
theorem qualifies {mexp : ℕ} (he : mexp + r = 32 * n) (hr : r < 32) (hn : 3 ≤ n) (id : ℤ) {s : St} (hs : SInv n r id s)
    (h2 : 2 ≤ s.pos) {q : (ZMod 2)[X]} (hq : Primitive2 q mexp) (hT : ∀ y, aeval (T n r (par s)) q y = 0) :
    Qualifies (searchOps mexp) (SInv n r id) par (den n r) (par s) := by
  have F := family he hr hn id
  refine ⟨fun t ht hpar h0 k => ?_, s, hs, rfl, ?_⟩
  · rw [(stateAt_spec (F.lin _) (g := t) ⟨ht, hpar⟩ k).2]
    exact period_of_primitive (by show 1 ≤ mexp; omega) hq (hT _) h0 k
  · obtain ⟨i, hi⟩ := low_bit (p := par s) (rec_ok hs.inv) h2 (mexp := mexp) (by omega) F.dim hq hT (seed_ne_zero hs.inv)
    refine ⟨i, ?_⟩
    have e3 := outAt_spec (F.lin (par s)) (g := seed 1 s) ⟨F.seed_inv _ hs, (seed_inv hs.inv 1).2⟩ i
    have e4 : outAt (searchOps mexp).gen (seed 1 s) i = out n r (par s) ((T n r (par s) ^ i) (den n r (seed 1 s))) := bits_inj e3
    show (outAt (searchOps mexp).gen (seed 1 s) i).getLsbD 0 = true
    rw [e4]
    exact hi

/-- A source whose first pair gives a `mata` that cannot be taken and whose second pair gives MT19937: the search takes the
second one. -/
example {mps : MPS} (hm : MinPolySeqSpec mps) {mexp : ℕ} (hmexp : mexp = 19937) (junk f : ℕ → BitVec 32) (h1 : f 1 &&& 0xffff0000 = 0x12340000)
    (h2 : f 2 = 395) (h3 : f 3 &&& 0xffff0000 = 0x99080000) {N : ℕ} (hN : 2 ≤ N) :
    ∃ st', start mps (searchOps mexp) (Period.primitivityOp none) N
        ⟨⟨mexp, 624, 0, junk, 2, 0, 0, 0, upper 32 31, ~~~ upper 32 31, 45279, false⟩, f, 0, 0⟩ = .ret true st' ∧
      st'.rand.pos = 397 ∧ st'.rand.mata = 0x9908b0df ∧ st'.count = 2 := by
  obtain ⟨st, hst⟩ : ∃ st : Search.St St (ℕ → BitVec 32),
      st = ⟨⟨mexp, 624, 0, junk, 2, 0, 0, 0, upper 32 31, ~~~ upper 32 31, 45279, false⟩, f, 0, 0⟩ := ⟨_, rfl⟩
  have hs : SInv 624 31 45279 st.rand := by
    rw [hst]
    exact ⟨⟨rfl, by show mexp + 31 = 32 * 624; omega, by decide, show 0 < 624 by decide, rfl, rfl, show 1 ≤ 2 by decide,
      show 2 < 624 by decide⟩, rfl, rfl⟩
  have hsrc : st.src = f := by rw [hst]
  have hprim : PrimOK (Period.primitivityOp none) mexp :=
    primOK_mersenne (Mexp.table_prime mexp (by rw [hmexp]; decide) (by omega))
  obtain ⟨k1, -⟩ := start_first (n := 624) (r := 31) hm hprim (by omega) (by omega) (by omega) 45279 0 0 st hs (by rw [hst]) (by rw [hst]) N
  obtain ⟨st', j1, j2, j3, j4, -⟩ := k1 1 (by omega) (by
    obtain ⟨t, ht⟩ : ∃ t : St, t = ⟨mexp, 624, 0, junk, 397, 0x9908b0df, 0, 0, upper 32 31, ~~~ upper 32 31, 45279, false⟩ := ⟨_, rfl⟩
    have hti : SInv 624 31 45279 t := by
      rw [ht]
      exact ⟨⟨rfl, by show mexp + 31 = 32 * 624; omega, by decide, show 0 < 624 by decide, rfl, rfl, show 1 ≤ 397 by decide,
        show 397 < 624 by decide⟩, rfl, rfl⟩
    have e : cand 624 45279 0 0 (from_ st.src (2 * 1)) = par t := by
      rw [ht, hsrc]
      show Par.mk ((f 2).toNat % (624 - 2) + 2) (if (0 : ℤ) ≤ 45279 then (f 3 &&& 0xffff0000) ||| (BitVec.ofInt 32 45279 &&& 0xffff) else f 3) 0 0 false = _
      rw [h2, if_pos (by omega), h3]
      show Par.mk _ _ 0 0 false = Par.mk 397 0x9908b0df 0 0 false
      congr 1
    rw [e]
    refine qualifies (by omega) (by omega) (by omega) 45279 hti (by rw [ht]; show 2 ≤ 397; decide) (GF2.MT32.primitive hmexp) ?_
    rw [ht]
    exact aeval_charPoly MT.P32_ok (by decide) (by decide) (by decide)) (fun i hi hq => by
    obtain rfl : i = 0 := by omega
    have hl : (f 0).toNat % 622 < 622 := Nat.mod_lt _ (by omega)
    have h := top_bit (n := 624) (r := 31) (by omega) (by omega) (by omega) 45279
      (by rw [hsrc]; show 2 ≤ (f 0).toNat % 622 + 2; omega)
      (by rw [hsrc]; show (f 0).toNat % 622 + 2 < 624; omega) hq
    have e : (cand 624 45279 0 0 (from_ st.src (2 * 0))).mata = 0x1234b0df := by
      rw [hsrc]
      show (if (0 : ℤ) ≤ 45279 then (f 1 &&& 0xffff0000) ||| (BitVec.ofInt 32 45279 &&& 0xffff) else f 1) = _
      rw [if_pos (by omega), h1]
      decide
    rw [e] at h
    revert h
    decide)
  rw [hst] at j1
  refine ⟨st', j1, ?_, ?_, ?_⟩
  · rw [j2, hsrc, show 2 * 1 = 2 from rfl, h2]
    rfl
  · rw [j3, hsrc, if_pos (by omega), show 2 * 1 + 1 = 3 from rfl, h3]
    decide
  · rw [j4, hst]

end MTT.MTDC

namespace MTT.MTGP

open Polynomial PIS Search

variable {n r : ℕ} {mps : MPS} {prim : ℕ → (ZMod 2)[X] → Option Bool}

/-- **C115 for `mtgp32`.** -/
theorem start_first (hm : MinPolySeqSpec mps) {mexp : ℕ} (hprim : PrimOK prim mexp) (he : mexp + r = 32 * n) (hr : r < 32)
    (hn : SizeOK n) (hn1 : 1 < n) (id : BitVec 32) (tm : ℕ → BitVec 32) (st : Search.St St (ℕ → BitVec 32))
    (hs : SInv n r id st.rand) (ht : st.rand.tmp = tm) (N : ℕ) :
    (∀ m < N, Qualifies (searchOps mexp) (SInv n r id) par (den n r) (cand n id st.rand.tbl tm (from_ st.src (5 * m))) →
      (∀ i < m, ¬ Qualifies (searchOps mexp) (SInv n r id) par (den n r) (cand n id st.rand.tbl tm (from_ st.src (5 * i)))) →
      ∃ st', start mps (searchOps mexp) prim N st = .ret true st' ∧
        st'.rand.pos = 3 + (st.src (5 * m)).toNat % (lastPos n - 2) ∧ st'.rand.sh1 = 13 ∧ st'.rand.sh2 = 4 ∧
        st'.rand.tbl 0 = entry 0 (st.src (5 * m + 1)) ∧ st'.rand.tbl 1 = entry 1 (st.src (5 * m + 2)) ∧
        st'.rand.tbl 2 = (entry 2 (st.src (5 * m + 3)) &&& (0xfff0000f : BitVec 32)) ^^^ ((id <<< 4) &&& (0x000ffff0 : BitVec 32)) ∧
        st'.rand.tbl 3 = (entry 3 (st.src (5 * m + 4)) &&& (0x0000ffff : BitVec 32)) ^^^ (id &&& (0xffff0000 : BitVec 32)) ∧
        st'.count = st.count + m + 1 ∧ ∀ k, st'.src k = st.src (5 * (m + 1) + k)) ∧
    ((∀ i < N, ¬ Qualifies (searchOps mexp) (SInv n r id) par (den n r) (cand n id st.rand.tbl tm (from_ st.src (5 * i)))) →
      ∃ st', start mps (searchOps mexp) prim N st = .ret false st' ∧ st'.count = st.count + N ∧
        ∀ k, st'.src k = st.src (5 * N + k)) := by
  obtain ⟨h1, h2⟩ := Search.start_first hm (family he hr hn hn1 id) hprim (draws (mexp := mexp) hn id st.rand.tbl tm) st hs
    ⟨hs.inv.size, hs.id, fun _ _ => rfl, ht, hs.rev⟩ N
  refine ⟨fun m hmN hA hno => ?_, fun hno => ?_⟩
  · obtain ⟨st', j1, j2, j3, j4, -⟩ := h1 m hmN hA hno
    have ht := congrArg Par.tbl j2
    exact ⟨st', j1, congrArg Par.pos j2, congrArg Par.sh1 j2, congrArg Par.sh2 j2, congrFun ht 0, congrFun ht 1, congrFun ht 2,
      congrFun ht 3, j3, fun k => by rw [j4]; rfl⟩
  · obtain ⟨st', j1, j3, j4, -⟩ := h2 hno
    exact ⟨st', j1, j3, fun k => by rw [j4]; rfl⟩

end MTT.MTGP

namespace MTT.RMT

open Polynomial PIS Search

variable {mps : MPS}

/-- **C115 for `RMT64Search`.** -/
theorem start_first (hm : MinPolySeqSpec mps) {mexp : ℕ} (h64 : 64 < mexp) (b c : BitVec 64) (st : RSt St (ℕ → BitVec 64))
    (hs : SInv mexp st.rand) (hb : st.rand.maskb = b) (hc : st.rand.maskc = c) (N : ℕ) :
    (∀ m < N, HasLarge (searchOps mexp) (SInv mexp) par mexp (cand (mexp / 64 + 1) b c (from_ st.src (2 * m))) →
      (∀ i < m, ¬ HasLarge (searchOps mexp) (SInv mexp) par mexp (cand (mexp / 64 + 1) b c (from_ st.src (2 * i)))) →
      ∃ st', rStart mps (searchOps mexp) mexp N st = .ret true st' ∧
        st'.rand.pos = (st.src (2 * m)).toNat % (mexp / 64 + 1) ∧ st'.rand.mata = st.src (2 * m + 1) ∧
        st'.count = st.count + m + 1 ∧ ∀ k, st'.src k = st.src (2 * (m + 1) + k)) ∧
    ((∀ i < N, ¬ HasLarge (searchOps mexp) (SInv mexp) par mexp (cand (mexp / 64 + 1) b c (from_ st.src (2 * i)))) →
      ∃ st', rStart mps (searchOps mexp) mexp N st = .ret false st' ∧ st'.count = st.count + N ∧
        ∀ k, st'.src k = st.src (2 * N + k)) := by
  obtain ⟨h1, h2⟩ := rStart_first (mexp := mexp) hm (family mexp) (by omega) (by show (mexp / 64 + 1) * 64 < 2 * mexp; omega) (draws mexp b c) st hs
    ⟨hs.inv.size, hb, hc, hs.rev⟩ N
  refine ⟨fun m hmN hA hno => ?_, fun hno => ?_⟩
  · obtain ⟨st', j1, j2, j3, j4, -⟩ := h1 m hmN hA hno
    exact ⟨st', j1, congrArg Par.pos j2, congrArg Par.mata j2, j3, fun k => by rw [j4]; rfl⟩
  · obtain ⟨st', j1, j3, j4, -⟩ := h2 hno
    exact ⟨st', j1, j3, fun k => by rw [j4]; rfl⟩

end MTT.RMT

namespace MTT.SFMT

open Polynomial PIS Search Anni Parity W128

variable {n : ℕ} {mps : MPS}

/-- **C115 for `sfmt`.** -/
theorem start_first (hm : MinPolySeqSpec mps) {mexp : ℕ} (h3 : 3 ≤ n) (hn : n < 2 ^ 24) (hbig : n * 128 < 2 * mexp)
    (st : RSt St (ℕ → BitVec 32)) (hs : Inv0 n mexp st.rand) (N : ℕ) :
    (∀ m < N, Search.HasLarge (dOps (rops n mexp) setUp (seed getOne)) (Inv1 n mexp) (fun s => s.param) mexp (cand n (from_ st.src (13 * m))) →
      (∀ i < m, ¬ Search.HasLarge (dOps (rops n mexp) setUp (seed getOne)) (Inv1 n mexp) (fun s => s.param) mexp
        (cand n (from_ st.src (13 * i)))) →
      ∃ st', rStart mps (dOps (rops n mexp) setUp (seed getOne)) mexp N st = .ret true st' ∧
        st'.rand.param = cand n (fun k => st.src (13 * m + k)) ∧
        st'.count = st.count + m + 1 ∧ ∀ k, st'.src k = st.src (13 * (m + 1) + k)) ∧
    ((∀ i < N, ¬ Search.HasLarge (dOps (rops n mexp) setUp (seed getOne)) (Inv1 n mexp) (fun s => s.param) mexp
        (cand n (from_ st.src (13 * i)))) →
      ∃ st', rStart mps (dOps (rops n mexp) setUp (seed getOne)) mexp N st = .ret false st' ∧ st'.count = st.count + N ∧
        ∀ k, st'.src k = st.src (13 * N + k)) := by
  obtain ⟨h1, h2⟩ := Anni.rStart_first (R := rops n mexp) hm (family h3 (setUpOK h3 hn)) (by show 1 ≤ mexp; omega)
    (by show n * 128 < 2 * mexp; omega) (draws h3 hn) st hs hs.size N
  refine ⟨fun m hmN hA hno => ?_, fun hno => ?_⟩
  · obtain ⟨st', j1, j2, j3, j4, -⟩ := h1 m hmN hA hno
    exact ⟨st', j1, j2, j3, fun k => by rw [j4]; rfl⟩
  · obtain ⟨st', j1, j3, j4, -⟩ := h2 hno
    exact ⟨st', j1, j3, fun k => by rw [j4]; rfl⟩

/-- **C115 for `sfmt`** with fixed shifts. -/
theorem start_first_fixed (hm : MinPolySeqSpec mps) {mexp : ℕ} (h3 : 3 ≤ n) (hn : n < 2 ^ 24) (hbig : n * 128 < 2 * mexp)
    (st : RSt St (ℕ → BitVec 32)) (hs : Inv0 n mexp st.rand) (N : ℕ) :
    (∀ m < N, Search.HasLarge (dOps (rops n mexp) setUpFixed (seed getOne)) (Inv1 n mexp) (fun s => s.param) mexp (candFixed n (from_ st.src (9 * m))) →
      (∀ i < m, ¬ Search.HasLarge (dOps (rops n mexp) setUpFixed (seed getOne)) (Inv1 n mexp) (fun s => s.param) mexp
        (candFixed n (from_ st.src (9 * i)))) →
      ∃ st', rStart mps (dOps (rops n mexp) setUpFixed (seed getOne)) mexp N st = .ret true st' ∧
        st'.rand.param = candFixed n (fun k => st.src (9 * m + k)) ∧
        st'.count = st.count + m + 1 ∧ ∀ k, st'.src k = st.src (9 * (m + 1) + k)) ∧
    ((∀ i < N, ¬ Search.HasLarge (dOps (rops n mexp) setUpFixed (seed getOne)) (Inv1 n mexp) (fun s => s.param) mexp
        (candFixed n (from_ st.src (9 * i)))) →
      ∃ st', rStart mps (dOps (rops n mexp) setUpFixed (seed getOne)) mexp N st = .ret false st' ∧ st'.count = st.count + N ∧
        ∀ k, st'.src k = st.src (9 * N + k)) := by
  obtain ⟨h1, h2⟩ := Anni.rStart_first (R := rops n mexp) hm (family h3 (setUpFixedOK h3 hn)) (by show 1 ≤ mexp; omega)
    (by show n * 128 < 2 * mexp; omega) (draws_fixed h3 hn) st hs hs.size N
  refine ⟨fun m hmN hA hno => ?_, fun hno => ?_⟩
  · obtain ⟨st', j1, j2, j3, j4, -⟩ := h1 m hmN hA hno
    exact ⟨st', j1, j2, j3, fun k => by rw [j4]; rfl⟩
  · obtain ⟨st', j1, j3, j4, -⟩ := h2 hno
    exact ⟨st', j1, j3, fun k => by rw [j4]; rfl⟩

end MTT.SFMT

namespace MTT.DSFMT

open Polynomial PIS Search Anni Parity W128

variable {n : ℕ} {mps : MPS}

/-- **C115 for `dSFMT`**; `sl` says whether `sl1` is fixed. -/
theorem start_first (hm : MinPolySeqSpec mps) {mexp : ℕ} (h3 : 3 ≤ n) (hn : n < 2 ^ 31) (hbig : n * 104 + 128 < 2 * mexp)
    (sl : Option ℕ) (st : RSt St (ℕ → BitVec 64)) (hs : Inv0 n mexp st.rand)
    (hsl : (if st.rand.fixed then some st.rand.fixedSL1 else none) = sl) (N : ℕ) :
    (∀ m < N, Search.HasLarge (dOps (rops n mexp) setUp (seed getOne)) (Inv1 n mexp) (fun s => s.param) mexp
        (cand n sl (from_ st.src (takes sl * m))) →
      (∀ i < m, ¬ Search.HasLarge (dOps (rops n mexp) setUp (seed getOne)) (Inv1 n mexp) (fun s => s.param) mexp
        (cand n sl (from_ st.src (takes sl * i)))) →
      ∃ st', rStart mps (dOps (rops n mexp) setUp (seed getOne)) mexp N st = .ret true st' ∧
        st'.rand.param = cand n sl (fun k => st.src (takes sl * m + k)) ∧
        st'.count = st.count + m + 1 ∧ ∀ k, st'.src k = st.src (takes sl * (m + 1) + k)) ∧
    ((∀ i < N, ¬ Search.HasLarge (dOps (rops n mexp) setUp (seed getOne)) (Inv1 n mexp) (fun s => s.param) mexp
        (cand n sl (from_ st.src (takes sl * i)))) →
      ∃ st', rStart mps (dOps (rops n mexp) setUp (seed getOne)) mexp N st = .ret false st' ∧ st'.count = st.count + N ∧
        ∀ k, st'.src k = st.src (takes sl * N + k)) := by
  obtain ⟨h1, h2⟩ := Anni.rStart_first (R := rops n mexp) hm (family h3 hn) (by show 1 ≤ mexp; omega)
    (by show n * 104 + 128 < 2 * mexp; omega) (draws h3 hn sl) st hs ⟨hs.size, hsl⟩ N
  refine ⟨fun m hmN hA hno => ?_, fun hno => ?_⟩
  · obtain ⟨st', j1, j2, j3, j4, -⟩ := h1 m hmN hA hno
    exact ⟨st', j1, j2, j3, fun k => by rw [j4]; rfl⟩
  · obtain ⟨st', j1, j3, j4, -⟩ := h2 hno
    exact ⟨st', j1, j3, fun k => by rw [j4]; rfl⟩

/-- A source that begins with the six numbers of dSFMT1279: the first set is taken. -/
example (hm : MinPolySeqSpec mps) (junk : ℕ → W128) (f : ℕ → BitVec 64) (hf : ∀ i < 6, f i = src1279.getD i 0) {N : ℕ} (hN : 1 ≤ N) :
    ∃ st', rStart mps (dOps (rops 12 1279) setUp (seed getOne)) 1279 N ⟨ctor 1279 junk, f, 0, 0, 0⟩ = .ret true st' ∧
      st'.rand.param = P1279 ∧ st'.count = 1 := by
  have hc : cand 12 none f = P1279 := by
    unfold cand
    dsimp only
    rw [hf 0 (by omega), hf 1 (by omega), hf 2 (by omega), hf 3 (by omega), hf 4 (by omega), hf 5 (by omega)]
    show Par.mk _ _ _ _ = Par.mk _ _ _ _
    congr 1
  obtain ⟨k1, -⟩ := start_first (n := 12) (mexp := 1279) hm (by omega) (by omega) (by omega) none ⟨ctor 1279 junk, f, 0, 0, 0⟩
    ⟨rfl, show 0 < 12 by decide, rfl, rfl, rfl, rfl, fun h => by cases h⟩ rfl N
  obtain ⟨st', j1, j2, j3, -⟩ := k1 0 (by omega) (by
    show Search.HasLarge _ _ _ _ (cand 12 none (from_ f (takes none * 0)))
    rw [Nat.mul_zero, from_zero, hc]
    obtain ⟨g, q, g1, g2, g3, g4⟩ := hasLarge1279 junk
    rw [one_eq] at g3
    exact ⟨{ ctor 1279 junk with param := P1279 }, q, g, inv1279 junk, rfl, g3, g1, g2, g4⟩) (fun i hi => by omega)
  refine ⟨st', j1, ?_, j3⟩
  rw [j2, Nat.mul_zero]
  show cand 12 none (fun k => f (0 + k)) = _
  simp only [Nat.zero_add]
  exact hc

end MTT.DSFMT
