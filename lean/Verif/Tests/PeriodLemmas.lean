import Verif.Tests.PeriodTest
import Verif.Tests.GenProps
import Verif.Search.Props
import Verif.Samples.XorShiftFixedProps
import Verif.Period.Factor
import Verif.GF2.Irred
import Verif.GF2.Large
import Verif.Mexp.Props

/-!
# test_period.cpp (helper lemmas)
-/

namespace MTT.Tests

open PIS Polynomial Search TinyRef GF2

/-! ## `Tiny32` and `Tiny64` are linear generators -/

theorem temper32_obj (r : T32) : temper32 true r = TinyMT.temper r.obj := rfl

theorem t32_linGen (p : T32) :
    LinGen t32Ops (fun r => TinyMT.SamePar p.obj r.obj) den32 (TinyMT.T p.obj) (TinyMT.O p.obj) where
  gen_inv r hr := by show TinyMT.SamePar _ (next32 r).obj; rw [next32_obj]; exact TinyMT.next_par hr
  gen_den r hr := by show TinyMT.den (next32 r).obj = _; rw [next32_obj]; exact TinyMT.next_den hr
  gen_out r hr := by
    show bits (temper32 true (next32 r)) = _
    rw [temper32_obj, next32_obj, TinyMT.temper_next, (TinyMT.f_par hr).2.2]; rfl
  genV_inv v r _ _ hr := by show TinyMT.SamePar _ (next32 r).obj; rw [next32_obj]; exact TinyMT.next_par hr
  genV_den v r _ _ hr := by show TinyMT.den (next32 r).obj = _; rw [next32_obj]; exact TinyMT.next_den hr
  genV_out v r _ hv hr := by
    show bits (temper32 true (next32 r) &&& _) = _
    rw [TinyMT.allOnes32, bits_and_mask _ hv, temper32_obj, next32_obj, TinyMT.temper_next, (TinyMT.f_par hr).2.2]; rfl
  add_inv a b ha hb := ha
  add_den a b ha hb := by
    refine Prod.ext (Wd.ext ?_) rfl
    exact TinyRef.setWidth_xor a.s0 b.s0
  zero_inv r hr := hr
  zero_den r _ := rfl

/-- `x` of `tinymt64_temper` after a step. -/
def gtx (p : T64) (s : S64) : BitVec 64 := (g0 p s ^^^ g1 p s) ^^^ (g0 p s >>> 8)

/-- The output after a step. -/
def gout (p : T64) (s : S64) : BitVec 64 := gtx p s ^^^ TinyRef.sel ((gtx p s).getLsbD 0) p.tmat

theorem gtx_add (p : T64) (s t : S64) : gtx p (s + t) = gtx p s ^^^ gtx p t := by
  unfold gtx
  rw [g0_add, g1_add, shr_xor]
  ac_rfl

/-- Output of `Tiny64`. -/
def O64 (p : T64) : S64 →ₗ[ZMod 2] V := linOf (fun s => bits (gout p s)) (fun s t => by
  rw [← bits_xor]
  congr 1
  unfold gout
  rw [gtx_add, BitVec.getLsbD_xor, TinyRef.sel_xor]
  ac_rfl)

theorem temper64_next {p r : T64} (h : Same64 p r) : temper64 true (next64 r) = gout p (den64 r) := by
  have e0 : g0 r = g0 p := by funext s; unfold g0; rw [h.1]
  have e1 : g1 r = g1 p := by funext s; unfold g1; rw [h.2.1]
  have ht : tx true (next64 r) = gtx p (den64 r) := by
    rw [next64_eq, e0, e1]; rfl
  have hm : (next64 r).tmat = p.tmat := (next64_par h).2.2
  unfold temper64 gout
  rw [ht, hm]
  split
  · next h => rw [(TinyRef.and_one_ne _).1 h]; rfl
  · next h =>
    rw [TinyRef.and_one_ne, Bool.not_eq_true] at h
    rw [h]; simp [TinyRef.sel]

theorem t64_linGen (p : T64) : LinGen t64Ops (Same64 p) den64 (TL p) (O64 p) where
  gen_inv r hr := next64_par hr
  gen_den r hr := next64_den hr
  gen_out r hr := by
    show bits (temper64 true (next64 r)) = _
    rw [temper64_next hr]; rfl
  genV_inv v r _ _ hr := next64_par hr
  genV_den v r _ _ hr := next64_den hr
  genV_out v r _ hv hr := by
    show bits (temper64 true (next64 r) &&& _) = _
    rw [show (~~~ (0 : BitVec 64)) = BitVec.allOnes 64 by decide, bits_and_mask _ hv, temper64_next hr]; rfl
  add_inv a b ha hb := ha
  add_den a b ha hb := by
    refine Prod.ext (Wd.ext ?_) rfl
    exact TinyRef.setWidth_xor a.s0 b.s0
  zero_inv r hr := hr
  zero_den r _ := rfl

/-! ## Minimal polynomials -/

section

variable {σ S : Type} {w : ℕ} [AddCommGroup S] [Module (ZMod 2) S] [Module.Finite (ZMod 2) S]
  {G : GenOps σ w} {Inv : σ → Prop} {den : σ → S} {T : S →ₗ[ZMod 2] S} {O : S →ₗ[ZMod 2] V} {mps : MPS}

/-- What `minpoly(poly, generator)` delivers. -/
theorem mp_spec (hm : MinPolySeqSpec mps) (h : LinGen G Inv den T O) {s : σ} (hs : Inv s) (hw : 0 < w)
    (hdim : Module.finrank (ZMod 2) S ≤ G.bitSize) :
    ∃ p, mp mps G s = some p ∧ IsSeqMinpoly p (outSeq T (coord w 0 O) (den s)) := by
  obtain ⟨p, h1, h2⟩ := minpoly_dim hm h hs hw hdim
  refine ⟨p, ?_, (bitAt_eq h hs hw) ▸ h2⟩
  have h1 : minpoly mps G 0 0 s = _ := h1
  unfold mp
  rw [h1]; rfl

/-- A primitive polynomial of the dimension annihilates the state, and the output bit is not constantly zero. -/
theorem mp_primitive (hm : MinPolySeqSpec mps) (h : LinGen G Inv den T O) {s : σ} (hs : Inv s) (hw : 0 < w)
    {n : ℕ} (hn : 1 ≤ n) (hdim : Module.finrank (ZMod 2) S = n) (hb : G.bitSize = n) {p : (ZMod 2)[X]} (hp : Primitive2 p n)
    (hT : ∀ x, aeval T p x = 0) {y : S} (hy : coord w 0 O y ≠ 0) (h0 : den s ≠ 0) :
    ∃ q, mp mps G s = some q ∧ Primitive2 q n := by
  obtain ⟨q, h1, h2⟩ := mp_spec hm h hs hw (by rw [hdim, hb])
  have hy0 : y ≠ 0 := fun e => hy (by rw [e, map_zero])
  obtain ⟨k, -, hk⟩ := orbit_surj hn hdim hp hT h0 hy0
  refine ⟨q, h1, XorShift.primitive_minpoly hn hp (fun e => hy ?_) (ann_outSeq T _ (hT _)) h2⟩
  rw [← hk]
  exact congrFun e k

end

/-- A primitive polynomial passes the test of `isPrime` with any table of numbers from 2 to the period. -/
theorem isPrimeStr_primitive {p : (ZMod 2)[X]} {n : ℕ} (hn : 2 ≤ n) (hp : Primitive2 p n) {t : List (Option (List Char))} {zs : List ℤ}
    (ht : Period.readTable t = some zs) (h : ∀ z ∈ zs, 2 ≤ z.toNat ∧ z.toNat ≤ 2 ^ n - 1) : Period.isPrimeStr p n t = some true := by
  have hirr := Primitive2.irreducible (by omega) hp
  unfold Period.isPrimeStr
  rw [ht]
  show Period.isPrimeVec p n (zs.map Int.toNat) = _
  unfold Period.isPrimeVec
  rw [if_neg (by rw [not_not]; exact (Period.deg_eq_iff (by omega)).2 hp.1), if_neg (by simp [Period.isIrreducible, hirr])]
  obtain ⟨b, h1, h2⟩ := Period.isPrimeLoop_spec (p := p) (by rw [hp.1]; omega) (2 ^ n - 1) (zs.map Int.toNat) (by
    intro q hq
    obtain ⟨z, hz, rfl⟩ := List.mem_map.1 hq
    have := h z hz
    omega)
  rw [h1, h2.2]
  intro q hq
  obtain ⟨z, hz, rfl⟩ := List.mem_map.1 hq
  obtain ⟨h3, h4⟩ := h z hz
  rw [hp.2]
  intro hd
  have hlt : (2 ^ n - 1) / z.toNat < 2 ^ n - 1 := Nat.div_lt_self (by omega) h3
  have hpos : 0 < (2 ^ n - 1) / z.toNat := Nat.div_pos h4 (by omega)
  exact absurd (Nat.le_of_dvd hpos hd) (by omega)

/-- A polynomial whose root has an order dividing one of the tested numbers does not pass. -/
theorem isPrimeStr_false {p : (ZMod 2)[X]} {n : ℕ} (hn : 2 ≤ n) {t : List (Option (List Char))} {zs : List ℤ}
    (ht : Period.readTable t = some zs) (h0 : ∀ z ∈ zs, z.toNat ≠ 0) {z : ℤ} (hz : z ∈ zs) (hd : p ∣ X ^ ((2 ^ n - 1) / z.toNat) - 1) :
    Period.isPrimeStr p n t = some false := by
  unfold Period.isPrimeStr
  rw [ht]
  show Period.isPrimeVec p n (zs.map Int.toNat) = _
  unfold Period.isPrimeVec
  by_cases h1 : Period.deg p ≠ n
  · rw [if_pos h1]
  · rw [if_neg h1]
    rw [not_not] at h1
    have h1 := (Period.deg_eq_iff (by omega)).1 h1
    by_cases h2 : (!Period.isIrreducible p) = true
    · rw [if_pos h2]
    · rw [if_neg h2]
      obtain ⟨b, h3, h4⟩ := Period.isPrimeLoop_spec (p := p) (by rw [h1]; omega) (2 ^ n - 1) (zs.map Int.toNat) (by
        intro q hq
        obtain ⟨z, hz, rfl⟩ := List.mem_map.1 hq
        exact h0 z hz)
      rw [h3]
      congr 1
      rw [Bool.eq_false_iff]
      intro hb
      exact h4.1 hb _ (List.mem_map_of_mem hz) hd

theorem readTable_test : Period.readTable testTable = some [3, 5, 17, 257, 641, 65537, 274177, 6700417, 672804213107211] := by
  decide +kernel

/-! ## The two objects of `RTiny32` -/

/-- Parameters of the object that shall be reducible. -/
abbrev pB : RTPar := ⟨0x59c94057, 0xfd77d893, 15, 16, 3, 9⟩

/-- Its state after `seed(1234)`. -/
abbrev zB : SR := (Wd.of 0x2ce82da0, Wd.of 0x52f9a8a9, Wd.of 0x195f4db0, Wd.of 0xd55c75a3)

theorem seedB : rtDen (rtNew pB 1234) = zB := by decide

abbrev wB : SR := ev fS (fun s => rtT pB s) 128 0x9c4dc1851e6da7cbb6ba2166034b9647 zB 0

theorem wB_eq : wB = aeval (rtT pB) (bitPoly 128 0x9c4dc1851e6da7cbb6ba2166034b9647) zB := by
  have h := ev_spec (T := rtT pB) (fc := fS) (fun s k => fS_eq s k) (f := fun s => rtT pB s) (fun _ => rfl) 128
    0x9c4dc1851e6da7cbb6ba2166034b9647 zB 0
  rw [zero_add] at h
  exact h

theorem wB_ann : aeval (rtT pB) (X + 1 : (ZMod 2)[X]) wB = 0 := by
  rw [map_add, aeval_X, map_one, LinearMap.add_apply, Module.End.one_apply]
  decide +kernel

theorem wB_bit : wB.2.1.val.getLsbD 0 = true := by decide +kernel

theorem wB_out : coord 32 0 rtO wB ≠ 0 := by
  generalize hw : wB = w
  have h := wB_bit
  rw [hw] at h
  show bits w.2.1.val 31 ≠ 0
  unfold bits
  rw [BitVec.getMsbD_eq_getLsbD]
  simp [h]

/-- The minimal polynomial is reducible: it has the factor `X + 1`, but the bits are not constant. -/
theorem reducibleB {q : (ZMod 2)[X]} (h : IsSeqMinpoly q (outSeq (rtT pB) (coord 32 0 rtO) zB)) : ¬ Irreducible q := by
  intro hq
  have hX : Irreducible (X + 1 : (ZMod 2)[X]) := by
    apply irreducible_of_degree_eq_one
    rw [← C_1]; exact degree_X_add_C 1
  have hd := dvd_of_out (rtT pB) (coord 32 0 rtO) hX wB_eq wB_ann wB_out h.2.1
  have he : (X + 1 : (ZMod 2)[X]) = q := eq_of_associated (hX.associated_of_dvd hq hd)
  have ha := h.2.1
  rw [← he, ann_iff, aeval_outSeq] at ha
  have := congrFun ha 0
  rw [map_add, aeval_X, map_one, LinearMap.add_apply, Module.End.one_apply] at this
  have h2 : (rtO ((rtT pB ^ 0) (rtT pB zB + zB))) 31 = 0 := this
  rw [pow_zero, Module.End.one_apply] at h2
  revert h2
  decide +kernel

/-- Parameters of the object that shall be irreducible but not primitive. -/
abbrev pC : RTPar := ⟨0x474ba8c4, 0x3039cd1a, 31, 16, 7, 4⟩

/-- Its state after `seed(1234)`. -/
abbrev zC : SR := (Wd.of 0x40b15510, Wd.of 0x10ec48a5, Wd.of 0x9be45c0b, Wd.of 0x6f76ed73)

theorem seedC : rtDen (rtNew pC 1234) = zC := by decide

theorem annC : aeval (rtT pC) (bitPoly (128 + 1) 0x1329336deb793f729f175694216524775) zC = 0 := by
  have h := ev_spec (T := rtT pC) (fc := fS) (fun s k => fS_eq s k) (f := fun s => rtT pC s) (fun _ => rfl) (128 + 1)
    0x1329336deb793f729f175694216524775 zC 0
  rw [zero_add] at h
  rw [← h]
  decide +kernel

theorem irrC : Irreducible (bitPoly (128 + 1) 0x1329336deb793f729f175694216524775) ∧
    (bitPoly (128 + 1) 0x1329336deb793f729f175694216524775).natDegree = 128 :=
  irreducible_of_check (s := 8) (mu := 0x1377d2e50c4c9811b6b7f05272904de70) (m := 64)
    (u := 0x9736df6f0563adfca553b6bf7e59353c) (by decide) (by decide) (by decide)
    (fun d hd hne => by
      obtain ⟨k, hk, rfl⟩ := (Nat.dvd_prime_pow Nat.prime_two).1 (show d ∣ 2 ^ 7 from hd)
      have : k ≤ 6 := by
        by_contra h
        exact hne (by rw [show k = 7 by omega]; rfl)
      exact pow_dvd_pow 2 this) (by decide +kernel)

theorem ordC : bitPoly (128 + 1) 0x1329336deb793f729f175694216524775 ∣ X ^ ((2 ^ 128 - 1) / 3) - 1 :=
  pow_one_of_check (s := 8) (mu := 0x1377d2e50c4c9811b6b7f05272904de70) (k := 128) (by decide) (by decide) (by decide)
    (by decide) (by decide +kernel)

/-! ## The two objects of `RLittle32` -/

/-- The state of an `RLittle32` from a number of 544 bits. -/
def unpack (N : ℕ) : SL := fun j => Wd.of (BitVec.ofNat 32 (N / 2 ^ (32 * (j : ℕ))))

/-- The transition on such numbers. -/
def stepN (p : RLPar) (N : ℕ) : ℕ :=
  N / 2 ^ 32 + 2 ^ 512 * (rlF p (BitVec.ofNat 32 N) (BitVec.ofNat 32 (N / 2 ^ (32 * (p.pos % 17))))).toNat

/-- `ev` on such numbers. -/
def evN (p : RLPar) : ℕ → ℕ → ℕ → ℕ → ℕ
  | 0, _, _, a => a
  | L + 1, M, s, a => force (Bool.rec a (a ^^^ s) (Nat.beq (M % 2) 1)) fun a => force (stepN p s) fun s => force (M / 2) fun M => evN p L M s a

theorem unpack_xor (a b : ℕ) : unpack (a ^^^ b) = unpack a + unpack b := by
  funext j
  apply Wd.ext
  show BitVec.ofNat 32 ((a ^^^ b) / 2 ^ (32 * (j : ℕ))) = BitVec.ofNat 32 (a / 2 ^ (32 * (j : ℕ))) ^^^ BitVec.ofNat 32 (b / 2 ^ (32 * (j : ℕ)))
  apply BitVec.eq_of_getLsbD_eq
  intro i hi
  rw [BitVec.getLsbD_xor, BitVec.getLsbD_ofNat, BitVec.getLsbD_ofNat, BitVec.getLsbD_ofNat, Nat.testBit_div_two_pow, Nat.testBit_div_two_pow,
    Nat.testBit_div_two_pow, Nat.testBit_xor]
  simp [hi]

theorem unpack_step (p : RLPar) {N : ℕ} (hN : N < 2 ^ 544) : unpack (stepN p N) = rlT p (unpack N) ∧ stepN p N < 2 ^ 544 := by
  have hx : (BitVec.ofNat 32 N) = (unpack N 0).val := by
    show _ = BitVec.ofNat 32 (N / 2 ^ (32 * 0))
    rw [Nat.mul_zero, pow_zero, Nat.div_one]
  have hy : (BitVec.ofNat 32 (N / 2 ^ (32 * (p.pos % 17)))) = (unpack N (rlPos p)).val := rfl
  have hd : N / 2 ^ 32 < 2 ^ 512 := by
    rw [Nat.div_lt_iff_lt_mul (by positivity), ← pow_add]; exact hN
  unfold stepN
  rw [hx, hy]
  have e : rlT p (unpack N) = shiftIn 17 (unpack N) (Wd.of (rlF p (unpack N 0).val (unpack N (rlPos p)).val)) := rfl
  rw [e]
  generalize rlF p (unpack N 0).val (unpack N (rlPos p)).val = v
  have hv := v.isLt
  generalize hq : N / 2 ^ 32 = q at hd
  constructor
  · funext j
    apply Wd.ext
    by_cases hj : (j : ℕ) + 1 < 17
    · have : (shiftIn 17 (unpack N) (Wd.of v) j).val = BitVec.ofNat 32 (N / 2 ^ (32 * ((j : ℕ) + 1))) := by
        unfold shiftIn
        rw [dif_pos hj]; rfl
      rw [this]
      show BitVec.ofNat 32 ((q + 2 ^ 512 * v.toNat) / 2 ^ (32 * (j : ℕ))) = _
      rw [show 32 * ((j : ℕ) + 1) = 32 + 32 * j by ring, pow_add, ← Nat.div_div_eq_div_mul, hq]
      apply BitVec.eq_of_toNat_eq
      rw [BitVec.toNat_ofNat, BitVec.toNat_ofNat]
      have h2 : (2 : ℕ) ^ 512 = 2 ^ (32 * (j : ℕ)) * (2 ^ 32 * 2 ^ (480 - 32 * (j : ℕ))) := by
        rw [← pow_add, ← pow_add]; congr 1; omega
      rw [h2, Nat.mul_assoc, Nat.add_mul_div_left _ _ (by positivity), Nat.mul_assoc, Nat.add_mul_mod_self_left]
    · have hj16 : (j : ℕ) = 16 := by have := j.isLt; omega
      have : (shiftIn 17 (unpack N) (Wd.of v) j).val = v := by
        unfold shiftIn
        rw [dif_neg hj]; rfl
      rw [this]
      show BitVec.ofNat 32 ((q + 2 ^ 512 * v.toNat) / 2 ^ (32 * (j : ℕ))) = _
      rw [hj16, show 32 * 16 = 512 from rfl, Nat.add_mul_div_left _ _ (by positivity), Nat.div_eq_of_lt hd, Nat.zero_add, BitVec.ofNat_toNat,
        BitVec.setWidth_eq]
  · have h1 : 2 ^ 512 * v.toNat ≤ 2 ^ 512 * (2 ^ 32 - 1) := Nat.mul_le_mul_left _ (by omega)
    have h2 : (2 : ℕ) ^ 544 = 2 ^ 512 * (2 ^ 32 - 1) + 2 ^ 512 := by
      rw [show 544 = 512 + 32 from rfl, pow_add]; omega
    omega

theorem evN_spec (p : RLPar) (L : ℕ) : ∀ M s a, s < 2 ^ 544 → unpack (evN p L M s a) = unpack a + aeval (rlT p) (bitPoly L M) (unpack s) := by
  induction L with
  | zero => intro M s a _; rw [evN, bitPoly, map_zero, LinearMap.zero_apply, add_zero]
  | succ L ih =>
    intro M s a hs
    obtain ⟨h1, h2⟩ := unpack_step p hs
    rw [evN, force_eq, force_eq, force_eq, ih _ _ _ h2, bitPoly, map_add, map_mul, aeval_X, LinearMap.add_apply, h1]
    have hc : (rlT p * aeval (rlT p) (bitPoly L (M / 2))) (unpack s) = aeval (rlT p) (bitPoly L (M / 2)) (rlT p (unpack s)) := by
      have h2 := map_mul (aeval (R := ZMod 2) (rlT p)) X (bitPoly L (M / 2))
      have h3 := map_mul (aeval (R := ZMod 2) (rlT p)) (bitPoly L (M / 2)) X
      rw [aeval_X] at h2 h3
      rw [← h2, mul_comm, h3]; rfl
    rw [hc, ← add_assoc]
    refine congrArg (· + aeval (rlT p) (bitPoly L (M / 2)) (rlT p (unpack s))) ?_
    cases hb : Nat.beq (M % 2) 1 with
    | false =>
      have : ¬ M % 2 = 1 := Nat.ne_of_beq_eq_false hb
      rw [if_neg this, map_zero, LinearMap.zero_apply, add_zero]
    | true =>
      have : M % 2 = 1 := Nat.eq_of_beq_eq_true hb
      rw [if_pos this, map_one]
      exact unpack_xor a s

theorem unpack_zero : unpack 0 = 0 := by
  funext j
  apply Wd.ext
  show BitVec.ofNat 32 (0 / _) = _
  rw [Nat.zero_div]; rfl

theorem rlNew_den (junk : ℕ → BitVec 32) (p : RLPar) (v : BitVec 32) (z : SL) (h : ∀ j : Fin 17, rlWord p.mat1 v j = (z j).val) :
    rlDen (rlNew junk p v) = z := by
  funext j
  apply Wd.ext
  rw [← h j]
  show (rlSeed v ⟨p, 0, junk⟩).state ((16 + (j + 1)) % 17) = _
  rw [rlSeed_state _ _ _ (Nat.mod_lt _ (by decide))]
  congr 1
  have := j.isLt
  omega

/-- Parameters of the object that shall have a factor of degree 521. -/
abbrev pD : RLPar := ⟨0x80903834, 7, 1, 31, 26, 26⟩

/-- Its state after `seed(1234)`. -/
abbrev zD : ℕ := 0x33d992418d73bedfb7303e9223ac9e34f21ad6987753599d9f3623281e2bf3c6e1ed477a42b06b8b77bfc735fc874f00860220dd74cc7c640479754d3cc470ef000004d2

theorem seedD (junk : ℕ → BitVec 32) : rlDen (rlNew junk pD 1234) = unpack zD := rlNew_den _ _ _ _ (by decide)

/-- The factor. -/
abbrev FD : ℕ := 0x23468b30b9e469d03536d86d5993ac0fea39e97b713f8f91cb91037cecf12b1811eabacc9543f510b7b7a1ae1e063ea55e87dd3d73efccab4cab594adb0b623ba57

theorem primD {n : ℕ} (hn : n = 521) : Primitive2 (bitPoly (n + 1) FD) n := by
  have hp : (2 ^ n - 1).Prime := hn ▸ Mexp.table_prime 521 (by decide) (by decide)
  refine primitive_of_check (s := 10)
    (mu := 0x236db0f65e41a73d95a6b0dde0eae17123b321c83d9fc246bfeba0adf381d26c6f45df4ce182ec05032a5201d8929a9d8e1e56def1ea0f4c1f3029f3138b50db93b)
    (by decide) (by omega) (by omega) (Q := [2 ^ n - 1]) (fun q hq hd => ?_) ?_
  · rw [List.mem_singleton]; exact (Nat.prime_dvd_prime_iff_eq hq hp).1 hd
  · subst hn; decide +kernel

abbrev wD : ℕ := evN pD 24 0x8db6cb zD 0

theorem wD_eq : unpack wD = aeval (rlT pD) (bitPoly 24 0x8db6cb) (unpack zD) := by
  rw [evN_spec _ _ _ _ _ (by decide +kernel), unpack_zero, zero_add]

theorem wD_ann : aeval (rlT pD) (bitPoly (521 + 1) FD) (unpack wD) = 0 := by
  have h := evN_spec pD (521 + 1) FD wD 0 (by decide +kernel)
  rw [unpack_zero, zero_add] at h
  rw [← h, show evN pD (521 + 1) FD wD 0 = 0 by decide +kernel, unpack_zero]

theorem wD_bit : (rlF pD (BitVec.ofNat 32 wD) (BitVec.ofNat 32 (wD / 2 ^ (32 * 7)))).getLsbD 0 = true := by decide +kernel

theorem wD_out : coord 32 0 (rlO pD) (unpack wD) ≠ 0 := by
  have h := wD_bit
  generalize wD = w at h
  show bits (rlF pD (BitVec.ofNat 32 (w / 2 ^ (32 * 0))) (BitVec.ofNat 32 (w / 2 ^ (32 * 7)))) 31 ≠ 0
  rw [Nat.mul_zero, pow_zero, Nat.div_one]
  generalize rlF pD (BitVec.ofNat 32 w) (BitVec.ofNat 32 (w / 2 ^ (32 * 7))) = u at h ⊢
  unfold bits
  rw [BitVec.getMsbD_eq_getLsbD]
  simp [h]

/-- Parameters of the object that shall not have a factor of degree 521. -/
abbrev pE : RLPar := ⟨0xed6fdaa7, 7, 5, 27, 9, 12⟩

/-- Its state after `seed(1234)`. -/
abbrev zE : ℕ := 0xef39509fecf6cce08f35b4ff9f0e8a9fda6a002903888c592c5abd366ad88bbdcb6d7ba7903522b12924c26251f4c12df68a3e0bc367e8f8ab50b053513b927c000004d2

theorem seedE (junk : ℕ → BitVec 32) : rlDen (rlNew junk pE 1234) = unpack zE := rlNew_den _ _ _ _ (by decide)

abbrev HE : ℕ := 0x7c0d31e68bfd2acff72d138d1fb1d1f31a40ef91d4c1f68a98dc8dc469896e7d1e78057
abbrev KE : ℕ := 0x6316bf929e170193d9e3c8e1d112df0ca89305096a713ecda5e7ca5d38aef924cb

abbrev wE : ℕ := evN pE 283 HE zE 0

theorem annE : aeval (rlT pE) (bitPoly 283 KE * bitPoly 283 HE) (unpack zE) = 0 := by
  have h := evN_spec pE 283 HE zE 0 (by decide +kernel)
  have h2 := evN_spec pE 283 KE wE 0 (by decide +kernel)
  rw [unpack_zero, zero_add] at h h2
  rw [map_mul, Module.End.mul_apply, ← h, ← h2, show evN pE 283 KE wE 0 = 0 by decide +kernel, unpack_zero]

end MTT.Tests
