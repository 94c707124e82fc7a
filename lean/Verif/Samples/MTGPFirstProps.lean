import Verif.Samples.MTGPFirst

/-!
# C120: the lines that `MTGP32dc` prints are determined by the numbers of its parameter source
-/

namespace MTT.MTGP

open Polynomial PIS Search Temper
open MTRec (upper)

variable {n r : ℕ}

noncomputable section

/-- The number of terms of the characteristic polynomial of the recurrence. -/
def weightOf (n r : ℕ) (p : Par) : ℕ := polyWeight (T n r p).charpoly

/-- The line that parameter set number `m` of the source is worth for `id`. -/
def lineAt (mexp : ℕ) (id : BitVec 32) (f : ℕ → BitVec 32) (m : ℕ) : Option Line :=
  let n := mexp / 32 + 1
  let r := 32 - mexp % 32
  let p := setAt n id f m
  (best mexp p).map fun q =>
    ⟨mexp, id, p.pos, p.sh1, p.sh2, p.tbl, q.1, upper 32 r, weightOf n r p, q.2⟩

end

/-- Number `m` is the first parameter set of the source for `id` whose recurrence has the greatest period. -/
def IsFirst (mexp : ℕ) (id : BitVec 32) (f : ℕ → BitVec 32) (m : ℕ) : Prop :=
  IsLeast {m | Full (mexp / 32 + 1) (32 - mexp % 32) (setAt (mexp / 32 + 1) id f m)} m

/-- **C120**, one line: the program stops at the first parameter set of greatest period, prints its line, the same whatever is not
initialised, and does not stop if there is none.  `fuel` bounds the calls of `start`, each of which looks at `1000 * mexp` sets. -/
theorem indexedSearch_first {mps : MPS} (hmps : MinPolySeqSpec mps) {prim : ℕ → (ZMod 2)[X] → Option Bool}
    {mexp : ℕ} (hprim : PrimOK prim mexp) (h32 : mexp % 32 ≠ 0) (hsz : SizeOK (mexp / 32 + 1)) (J : Junk)
    (fuel : ℕ) (id : BitVec 32) (f : ℕ → BitVec 32) :
    (∀ m < fuel * (1000 * mexp), IsFirst mexp id f m → ∃ l, lineAt mexp id f m = some l ∧
      indexedSearch mps prim J fuel mexp id f = some (some l)) ∧
    ((∀ m < fuel * (1000 * mexp), ¬ IsFirst mexp id f m) → indexedSearch mps prim J fuel mexp id f = none) := by
  obtain ⟨n, hn⟩ : ∃ n, n = mexp / 32 + 1 := ⟨_, rfl⟩
  obtain ⟨r, hr⟩ : ∃ r, r = 32 - mexp % 32 := ⟨_, rfl⟩
  unfold IsFirst
  rw [← hn, ← hr]
  have hn2 : 3 < n := by
    rcases hsz with ⟨h1, h2⟩ | ⟨h1, -⟩ <;> omega
  have hm : mexp + r = 32 * n := by omega
  have hr32 : r < 32 := by omega
  rw [← hn] at hsz
  obtain ⟨g, c1, c2, c3, c4, c5, c6, c7, c8, c9⟩ := ctor_spec mexp id J.pos J.sh1 J.sh2 J.mask J.state h32
  have hzero : g.tbl = (fun _ => 0) ∧ g.tmp = fun _ => 0 := by
    unfold ctor at c1
    dsimp only at c1
    rw [if_pos (by omega)] at c1
    injection c1 with c1
    rw [← c1]
    exact ⟨rfl, rfl⟩
  have hg : SInv n r id { g with pos := 2 } :=
    ⟨⟨c4.trans hn.symm, by show g.mexp + r = _; rw [c2]; exact hm, hr32, by show g.idx < n; omega,
      by show g.mask = _; rw [c6, hr], le_refl 2, by show 2 < n; omega, fun i _ => c8 i, fun i _ => c9 i⟩, c7, c3⟩
  have F := family hm hr32 hsz (by omega) id
  have hcall : ∀ st1 st2 dl, rtSearch mps (searchOps mexp) prim st1 st2 dl false fuel g f =
      rtSearch mps (searchOps mexp) prim st1 st2 dl false fuel { g with pos := 2 } f := fun st1 st2 dl =>
    rtSearch_congr (D := searchOps mexp) (s := g) (s' := { g with pos := 2 }) (fun src => by
      show (setUpParam _ _ _ _ _ g).map _ = Option.map _ _
      rw [← setUpParam_pos _ _ _ _ _ g 2]) (by show 1 ≤ mexp; omega) _ _ _
  obtain ⟨s0, hs0⟩ : ∃ s0 : St, s0 = { g with pos := 2 } := ⟨_, rfl⟩
  unfold indexedSearch
  rw [c1]
  dsimp only
  unfold allSearch
  rw [hcall]
  rw [← hs0] at hg ⊢
  have hK : Kept n id (fun _ => 0) (fun _ => 0) s0 := by
    refine ⟨hg.inv.size, hg.id, fun k _ => ?_, ?_, hg.rev⟩
    · rw [hs0]; exact congrFun hzero.1 k
    · rw [hs0]; exact hzero.2
  have hD := draws (r := r) (mexp := mexp) hsz id (fun _ => 0) (fun _ => 0)
  obtain ⟨k1, k2⟩ := findLoop_first hmps F hprim hD (1000 * mexp) fuel ⟨s0, f, 0, 0⟩ hg hK
  have hq : ∀ i, Qualifies (searchOps mexp) (SInv n r id) par (den n r) (setAt n id f i) ↔ Full n r (setAt n id f i) := fun i => by
    obtain ⟨s', d1, d2, d3⟩ := hD.draw s0 (from_ f (5 * i)) hg hK
    have hs' := F.setUp_inv _ _ _ _ hg d1
    have : par s' = setAt n id f i := d3
    rw [← this]
    exact qualifies_iff hm hr32 hsz (by omega) id hs' d2.2.2.2.1
  constructor
  · rintro m hlt ⟨hA, hmin⟩
    have hno : ∀ i < m, ¬ Full n r (setAt n id f i) := fun i hi hf => absurd (hmin hf) (by omega)
    obtain ⟨st, j1, j2, j3, j4⟩ := k1 m hlt ((hq m).2 hA) fun i hi => (hq i).not.2 (hno i hi)
    have hp : par st.rand = setAt n id f m := j2
    have ho : Origin (searchOps mexp) (SInv n r id) par (den n r) (T n r) st :=
      findLoop_origin F hmps hprim _ fuel _ hg j1
    have h0 : den n r st.rand ≠ 0 := by
      obtain ⟨q, src, r0, -, -, hrand, hpar, hr0⟩ := ho.from_setUp
      rw [hrand]
      have hp : par ((searchOps mexp).seedOne r0) = par st.rand := ((seed_inv hr0.inv 1).2).trans hpar.symm
      exact stateAt_ne_zero F (s := (searchOps mexp).seedOne r0) (F.seed_inv _ hr0)
        (by rw [hp]; exact ho.max) (seed_ne_zero hr0.inv) _
    obtain ⟨tm, d, b1, b2⟩ := best_spec hm hn hr hr32 ho.inv.inv ho.inv.rev j4.2.2.2.1 h0 (by rw [hp]; exact hA)
    obtain ⟨t, u, t1, t2, t3, t4, t5⟩ := b2 J
    rw [hp] at b1
    have j1' : findLoop mps (searchOps mexp) prim (1000 * (searchOps mexp).gen.bitSize) fuel ⟨s0, f, 0, 0⟩ =
      some (.ret true st) := j1
    unfold rtSearch lineAt
    dsimp only
    rw [← hn, ← hr, j1', b1]
    dsimp only
    rw [if_neg (by simp), t1]
    dsimp only
    rw [t2]
    dsimp only
    rw [t3]
    refine ⟨_, rfl, ?_⟩
    dsimp only
    congr 2
    have hmx : st.rand.mexp = mexp := by have := ho.inv.inv.mexp; omega
    have hmask : st.rand.mask = upper 32 r := ho.inv.inv.mask
    unfold SameRec at t4
    rw [ho.poly, hp, t4, t5]
    unfold lineOf
    dsimp only
    rw [hmx, hmask, ho.inv.id, ← hp]
    rfl
  · intro hno
    have hnone : ∀ i < fuel * (1000 * mexp), ¬ Full n r (setAt n id f i) := by
      intro i hi hf
      classical
      have hex : ∃ i, Full n r (setAt n id f i) := ⟨i, hf⟩
      exact hno (Nat.find hex) (lt_of_le_of_lt (Nat.find_min' hex hf) hi) ⟨Nat.find_spec hex, fun j hj => Nat.find_min' hex hj⟩
    have j1 : findLoop mps (searchOps mexp) prim (1000 * (searchOps mexp).gen.bitSize) fuel ⟨s0, f, 0, 0⟩ = none :=
      k2 fun i hi => (hq i).not.2 (hnone i hi)
    unfold rtSearch
    rw [j1]

/-- **C120**, the program: `count` lines for the ids `id`, `id + 1`, …; line number `i` is that of the first parameter set of
greatest period that the source gives for its id, whatever is not initialised. -/
theorem dcMain_first {mps : MPS} (hmps : MinPolySeqSpec mps) {prim : ℕ → (ZMod 2)[X] → Option Bool}
    {mexp : ℕ} (hprim : PrimOK prim mexp) (h32 : mexp % 32 ≠ 0) (hsz : SizeOK (mexp / 32 + 1)) (J : ℕ → Junk)
    (fuel : ℕ) (f : ℕ → BitVec 32) (count : ℕ) (id : BitVec 32) (m : ℕ → ℕ)
    (hf : ∀ i < count, m i < fuel * (1000 * mexp) ∧ IsFirst mexp (id + BitVec.ofNat 32 i) f (m i)) :
    ∃ L, dcMain mps prim J fuel mexp f count id = some (some L) ∧
      L.map some = (List.range count).map fun i => lineAt mexp (id + BitVec.ofNat 32 i) f (m i) := by
  induction count generalizing id m with
  | zero => exact ⟨[], rfl, rfl⟩
  | succ c ih =>
    have h0 := hf 0 (by omega)
    rw [show id + BitVec.ofNat 32 0 = id from BitVec.add_zero id] at h0
    obtain ⟨l, l1, l2⟩ := (indexedSearch_first hmps hprim h32 hsz (J c) fuel id f).1 (m 0) h0.1 h0.2
    have hnext : ∀ i, id + BitVec.ofNat 32 (i + 1) = id + 1 + BitVec.ofNat 32 i := fun i => by
      rw [BitVec.ofNat_add, BitVec.add_assoc, BitVec.add_comm (BitVec.ofNat 32 i)]; rfl
    obtain ⟨L, e1, e2⟩ := ih (id + 1) (fun i => m (i + 1)) fun i hi => by
      rw [← hnext]
      exact hf (i + 1) (by omega)
    refine ⟨l :: L, ?_, ?_⟩
    · unfold dcMain
      rw [l2]
      dsimp only
      rw [e1]
    · rw [List.map_cons, e2, List.range_succ_eq_map, List.map_cons, List.map_map,
        show id + BitVec.ofNat 32 0 = id from BitVec.add_zero id, l1]
      refine congrArg (List.cons (some l)) (List.map_congr_left fun i _ => ?_)
      show _ = lineAt mexp (id + BitVec.ofNat 32 (i + 1)) f (m (i + 1))
      rw [hnext]

/-- **C120**: the program stops if and only if each of the ids has a parameter set of greatest period in the source. -/
theorem dcMain_ends {mps : MPS} (hmps : MinPolySeqSpec mps) {prim : ℕ → (ZMod 2)[X] → Option Bool}
    {mexp : ℕ} (hprim : PrimOK prim mexp) (h32 : mexp % 32 ≠ 0) (hsz : SizeOK (mexp / 32 + 1)) (J : ℕ → Junk)
    (f : ℕ → BitVec 32) (count : ℕ) (id : BitVec 32) :
    (∃ fuel, dcMain mps prim J fuel mexp f count id ≠ none) ↔
      ∀ i < count, ∃ m, Full (mexp / 32 + 1) (32 - mexp % 32) (setAt (mexp / 32 + 1) (id + BitVec.ofNat 32 i) f m) := by
  constructor
  · rintro ⟨fuel, h⟩
    induction count generalizing id with
    | zero => intro i hi; omega
    | succ c ih =>
      have hnext : ∀ i, id + BitVec.ofNat 32 (i + 1) = id + 1 + BitVec.ofNat 32 i := fun i => by
        rw [BitVec.ofNat_add, BitVec.add_assoc, BitVec.add_comm (BitVec.ofNat 32 i)]; rfl
      have h0 : indexedSearch mps prim (J c) fuel mexp id f ≠ none := by
        intro e
        apply h
        unfold dcMain
        rw [e]
      have hfirst : ∃ m, m < fuel * (1000 * mexp) ∧ IsFirst mexp id f m := by
        by_contra hno
        exact h0 ((indexedSearch_first hmps hprim h32 hsz (J c) fuel id f).2 fun m hm hf => hno ⟨m, hm, hf⟩)
      obtain ⟨m, m1, m2⟩ := hfirst
      obtain ⟨l, -, l2⟩ := (indexedSearch_first hmps hprim h32 hsz (J c) fuel id f).1 m m1 m2
      have hrest : dcMain mps prim J fuel mexp f c (id + 1) ≠ none := by
        intro e
        apply h
        unfold dcMain
        rw [l2]
        dsimp only
        rw [e]
      intro i hi
      cases i with
      | zero =>
        rw [show id + BitVec.ofNat 32 0 = id from BitVec.add_zero id]
        exact ⟨m, m2.1⟩
      | succ i =>
        rw [hnext]
        exact ih (id + 1) hrest i (by omega)
  · intro h
    have hpos : 1 ≤ 1000 * mexp := by omega
    classical
    choose! m hm using h
    have hleast : ∀ i < count, ∃ k, k ≤ m i ∧ IsFirst mexp (id + BitVec.ofNat 32 i) f k := fun i hi =>
      have hex : ∃ k, Full (mexp / 32 + 1) (32 - mexp % 32) (setAt (mexp / 32 + 1) (id + BitVec.ofNat 32 i) f k) := ⟨_, hm i hi⟩
      ⟨Nat.find hex, Nat.find_min' hex (hm i hi), Nat.find_spec hex, fun j hj => Nat.find_min' hex hj⟩
    choose! k k1 k2 using hleast
    refine ⟨(Finset.range count).sup m + 1, ?_⟩
    obtain ⟨L, e, -⟩ := dcMain_first hmps hprim h32 hsz J ((Finset.range count).sup m + 1) f count id k fun i hi => ⟨by
      have a := Finset.le_sup (f := m) (Finset.mem_range.2 hi)
      have b := k1 i hi
      calc k i < (Finset.range count).sup m + 1 := by omega
        _ ≤ _ := Nat.le_mul_of_pos_right _ hpos, k2 i hi⟩
    rw [e]
    exact Option.some_ne_none _

end MTT.MTGP
