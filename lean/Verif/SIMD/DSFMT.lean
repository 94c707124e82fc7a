import Verif.SIMD.Props
import Verif.Samples.DSFMTProps
import Mathlib.LinearAlgebra.Charpoly.Basic

/-!
# C64: `calc_dSFMT_equidistribution` for the class `dSFMT`
-/

namespace MTT.DSFMT

open W128 PIS Polynomial SIMD
open SFMT (at' at_add)

variable {n : ℕ}

/-- The core of a state: the words and the lung. -/
abbrev Core (n : ℕ) : Type := (Fin n → Wd 128) × Wd 128

/-- The start mode chooses the lane with which the word begins. -/
theorem u64_select (m : ℕ) (hm : m < 2) (y z : W128) (i : ℕ) (hi : i < 2) :
    u64 (select m y z) i = if m ≠ 0 ∧ m + i < 2 then u64 y (m + i) else u64 z ((m + i) % 2) := by
  have hm' : m = 0 ∨ m = 1 := by omega
  have hi' : i = 0 ∨ i = 1 := by omega
  have e0 : select 0 y z = mk64 (u64 z 0) (u64 z 1) := rfl
  have e1 : select 1 y z = mk64 (u64 y 1) (u64 z 0) := rfl
  rcases hm' with rfl | rfl <;> rcases hi' with rfl | rfl <;>
    simp only [Nat.cast_zero, Nat.cast_one, e0, e1, (u64_mk64 _ _).1, (u64_mk64 _ _).2] <;> rfl

/-- The weight mode is the number of lanes that are of the new word. -/
theorem u64_merge (b : ℕ) (h1 : 1 ≤ b) (h2 : b ≤ 2) (r q : W128) (i : ℕ) (hi : i < 2) :
    u64 (merge b r q) i = if i < b then u64 r i else u64 q i := by
  have hb' : b = 1 ∨ b = 2 := by omega
  have hi' : i = 0 ∨ i = 1 := by omega
  have e1 : merge 1 r q = mk64 (u64 r 0) (u64 q 1) := rfl
  have e2 : merge 2 r q = r := rfl
  rcases hb' with rfl | rfl <;> rcases hi' with rfl | rfl <;>
    simp only [Nat.cast_one, Nat.cast_ofNat, e1, e2, (u64_mk64 _ _).1, (u64_mk64 _ _).2] <;> rfl

/-- The 52 bits of a lane. -/
def frac (w : W128) (i : ℕ) : BitVec 52 := (u64 w i).setWidth 52

theorem frac_xor (x y : W128) (i : ℕ) : frac (x ^^^ y) i = frac x i ^^^ frac y i := by
  unfold frac; rw [u64_xor, BitVec.setWidth_xor]

theorem bits_frac (w : W128) (i c : ℕ) (hc : c < 52) : bits (frac w i) c = bits (u64 w i) (12 + c) := by
  unfold bits frac
  rw [BitVec.getMsbD_eq_getLsbD, BitVec.getMsbD_eq_getLsbD, decide_eq_true hc, decide_eq_true (show 12 + c < 64 by omega),
    Bool.true_and, Bool.true_and, BitVec.getLsbD_setWidth, decide_eq_true (show 52 - 1 - c < 52 by omega), Bool.true_and,
    show 64 - 1 - (12 + c) = 52 - 1 - c by omega]

/-- The stream of 52-bit words of a state: those of the newest word are the words 0 and 1, those of the next word the
words 2 and 3, and so on. -/
def stream52 (n : ℕ) (p : Par) (k : ℕ) : Core n →ₗ[ZMod 2] V :=
  (linOf (fun v : Core n => bits (frac (at' v.1 (n - 1)) (k % 2))) (fun v v' => by
    rw [Prod.fst_add, at_add, frac_xor, bits_xor])).comp (T1 n p ^ (k / 2))

theorem stream52_apply (p : Par) (k : ℕ) (v : Core n) :
    stream52 n p k v = bits (frac (at' ((T1 n p ^ (k / 2)) v).1 (n - 1)) (k % 2)) := rfl

theorem at_T1 (hn : 1 ≤ n) (p : Par) (v : Core n) : at' (T1 n p v).1 (n - 1) = wordOf p v := by
  unfold at'
  rw [dif_pos (by omega)]
  show (shiftIn n v.1 (Wd.of (wordOf p v)) ⟨n - 1, _⟩).val = wordOf p v
  unfold shiftIn
  rw [dif_neg (by show ¬ (n - 1 + 1 < n); omega)]
  rfl

theorem cyc_onto {p : Par} (hpos : 1 ≤ p.pos1) (hn : p.pos1 < n) (v : Core n) :
    ∀ s ∈ cyc (T1 n p) v, ∃ r ∈ cyc (T1 n p) v, T1 n p r = s := by
  have hinj := (T1_bijective hpos hn).1
  have hst : ∀ s ∈ cyc (T1 n p) v, T1 n p s ∈ cyc (T1 n p) v := fun s => cyc_T _
  have h1 : Function.Injective ((T1 n p).restrict hst) := by
    intro x y h
    exact Subtype.ext (hinj (congrArg Subtype.val h))
  have h2 := LinearMap.injective_iff_surjective.1 h1
  intro s hs
  obtain ⟨r, hr⟩ := h2 ⟨s, hs⟩
  exact ⟨r, r.2, congrArg Subtype.val hr⟩

theorem blocks52 {p : Par} (hpos : 1 ≤ p.pos1) (hn : p.pos1 < n) (v : Core n) :
    Blocks (stream52 n p) (cyc (T1 n p) v) (T1 n p) 2 := by
  refine ⟨fun k s => ?_, fun s => cyc_T _, cyc_onto hpos hn v⟩
  rw [stream52_apply, stream52_apply, Nat.add_div_right _ (by decide), Nat.add_mod_right, pow_succ,
    Module.End.mul_apply]

/-- The interface that `calc_dSFMT_equidistribution` uses. -/
def simdOps (n : ℕ) : SIMDOps St where
  gen := ops n
  setStart := setStartMode
  setWeight := setWeightMode

/-- The object in a pair of modes, as `calc_dSFMT_equidistribution` makes it. -/
theorem mode_start {s : St} (hs : Inv n s) (a b : ℤ) :
    Inv n (generate (setWeightMode b (setStartMode a s))).1 ∧
    cfg (generate (setWeightMode b (setStartMode a s))).1 = ⟨s.param, a, b⟩ ∧
    den n (generate (setWeightMode b (setStartMode a s))).1 = T n ⟨s.param, a, b⟩ (core n s, 0) := by
  have hi : Inv n (setWeightMode b (setStartMode a s)) :=
    ⟨hs.two, hs.size, hs.index, hs.pos_pos, hs.pos, hs.sl1⟩
  obtain ⟨⟨h1, h2⟩, h3, -⟩ := generate_spec hi
  exact ⟨h1, h2, h3⟩

/-- The output after one more step, from the core alone. -/
theorem out_T (c : Cfg) (v : Core n) :
    out c (T n c (v, 0)) = merge c.weight (selOf c (T1 n c.p v)) (selOf c v) := by
  rw [merge_eq]; rfl

theorem block_select52 (hn : 1 ≤ n) (c : Cfg) {a : ℕ} (ha : a < 2) (hc : c.start = a) (v : Core n)
    {i : ℕ} (hi : i < 2) : bits (frac (selOf c v) i) = stream52 n c.p (a + 2 * (if a = 0 then 1 else 0) + i) v := by
  unfold selOf frac
  rw [hc, u64_select a ha _ _ i hi, stream52_apply]
  by_cases h0 : a = 0
  · subst h0
    rw [if_neg (by omega), if_pos rfl, show (0 + 2 * 1 + i) / 2 = 1 by omega, pow_one, at_T1 hn, Nat.zero_add,
      show (0 + 2 * 1 + i) % 2 = i % 2 by omega]
    rfl
  · rw [if_neg h0]
    by_cases h1 : a + i < 2
    · rw [if_pos ⟨h0, h1⟩, show (a + 2 * 0 + i) / 2 = 0 by omega, show (a + 2 * 0 + i) % 2 = a + i by omega, pow_zero]
      rfl
    · rw [if_neg (by omega), show (a + 2 * 0 + i) / 2 = 1 by omega, pow_one, at_T1 hn]
      rfl

/-- **C64.**  The start and weight modes of `dSFMT`. -/
theorem mode52 {s : St} (hs : Inv n s) {a b : ℕ} (ha : a < 2) (hb1 : 1 ≤ b) (hb : b ≤ 2) :
    Mode (ops n) 52 2 (fun i c => (2 - 1 - i) * 64 + (12 + c))
      (generate (setWeightMode (1 * b : ℕ) (setStartMode (1 * a : ℕ) s))).1 a b (stream52 n s.param)
      (T1 n s.param) (core n s) := by
  rw [Nat.one_mul, Nat.one_mul]
  have hn : 1 ≤ n := by have := hs.two; omega
  obtain ⟨h1, h2, h3⟩ := mode_start hs a b
  refine ⟨S n, inferInstance, inferInstance, _, _, _, _,
    (T n ⟨s.param, a, b⟩).comp (LinearMap.inl (ZMod 2) (Core n) (Wd 128)),
    linGen (n := n) ⟨s.param, a, b⟩, ⟨h1, h2⟩, h3, fun v => rfl, if a = 0 then 1 else 0, fun v i hi c hc => ?_⟩
  show bits (out _ (T n _ (v, 0))) ((2 - 1 - i) * 64 + (12 + c)) = _
  rw [out_T, ← bits_u64 _ i (12 + c) hi (by omega), u64_merge b hb1 hb _ _ i hi]
  by_cases h : i < b
  · rw [if_pos h, if_pos h, ← bits_frac _ _ _ hc, block_select52 hn _ ha rfl _ hi,
      show a + 2 * (if a = 0 then 1 else 0) + 2 + i = a + 2 * (if a = 0 then 1 else 0) + i + 2 by omega]
    rw [(blocks52 hs.pos_pos hs.pos v).shift]
  · rw [if_neg h, if_neg h, ← bits_frac _ _ _ hc, block_select52 hn _ ha rfl _ hi]; rfl

/-- **C64.**  The stream is what the generator produces: its words from number 2 on are the 52-bit words of the outputs
of the object in start mode 0 and weight mode 2. -/
theorem stream52_out {s : St} (hs : Inv n s) (k : ℕ) :
    stream52 n s.param (k + 2) (core n s) =
      bits (frac (outAt (ops n) (setWeightMode 2 (setStartMode 0 s)) (k / 2)) (k % 2)) := by
  have hi : Inv n (setWeightMode 2 (setStartMode 0 s)) := ⟨hs.two, hs.size, hs.index, hs.pos_pos, hs.pos, hs.sl1⟩
  have hc : cfg (setWeightMode 2 (setStartMode 0 s)) = ⟨s.param, 0, 2⟩ := rfl
  have ho := outAt_spec (linGen (n := n) ⟨s.param, 0, 2⟩) (g := setWeightMode 2 (setStartMode 0 s)) ⟨hi, hc⟩ (k / 2)
  have hT : ∀ t (x : S n), ((T n ⟨s.param, 0, 2⟩ ^ t) x).1 = (T1 n s.param ^ t) x.1 := by
    intro t
    induction t with
    | zero => intro x; rfl
    | succ t ih => intro x; rw [pow_succ, pow_succ, Module.End.mul_apply, Module.End.mul_apply, ih]; rfl
  have hsec : ((T n ⟨s.param, 0, 2⟩ ^ (k / 2)) (den n (setWeightMode 2 (setStartMode 0 s)))).2 = 0 := by
    cases k / 2 with
    | zero =>
      show Wd.of (mk64 0 0 &&& keep 2) = Wd.of 0
      rw [show keep 2 = 0 from rfl, show mk64 0 0 &&& (0 : W128) = 0 from BitVec.and_zero]
    | succ t =>
      rw [pow_succ', Module.End.mul_apply]
      show Wd.of (selOf _ _ &&& keep 2) = Wd.of 0
      rw [show keep 2 = 0 from rfl, show ∀ x : W128, x &&& 0 = 0 from fun x => BitVec.and_zero]
  have hw : outAt (ops n) (setWeightMode 2 (setStartMode 0 s)) (k / 2) =
      wordOf s.param ((T1 n s.param ^ (k / 2)) (core n s)) := by
    apply bits_inj
    rw [ho]
    show bits (out _ _) = _
    congr 1
    unfold out
    rw [hsec, hT]
    show (selOf _ _ &&& ~~~ keep 2) ^^^ (0 : W128) = _
    rw [show keep 2 = 0 from rfl, show ~~~ (0 : W128) = BitVec.allOnes 128 by decide, BitVec.and_allOnes]
    refine (BitVec.xor_zero).trans ?_
    exact mk64_eta _
  rw [hw, stream52_apply, Nat.add_div_right _ (by decide), Nat.add_mod_right, pow_succ', Module.End.mul_apply,
    at_T1 (by have := hs.two; omega)]

/-- **C64.**  `calc_dSFMT_equidistribution` on an object of class `dSFMT`, as `dSFMTdc.cpp` and `calc_equidist.cpp` use
it: it ends without an exception, the elements of `veq` are at most the dimensions of equidistribution `k(v)` of the
stream of 52-bit words and short of them by at most 1, and the number returned is the sum of the defects.  (That they
are equal to `k(v)` is false: see `Verif.SIMD.CounterD`.) -/
theorem simd52_partial {s : St} (hs : Inv n s) {χ : (ZMod 2)[X]} (hχ : χ.Monic)
    (hc : aeval (T1 n s.param) χ (core n s) = 0) {mexp : ℕ} (hm : χ.natDegree ≤ mexp)
    (hb : mexp ≤ n * 104 + 128) (hm2 : mexp < 2 ^ 31) {bitLen : ℕ} (hbl : bitLen ≤ 52) (veq0 : ℕ → ℤ) :
    ∃ veq sum, calcSIMD (simdOps n) (dsfmtAlg dinfo) calc1posWrap (128 * (129 * mexp) + 129) mexp bitLen s veq0 =
        .ok (veq, sum) ∧
      (∀ v, 1 ≤ v → v ≤ bitLen → ∃ k : ℕ,
        IsGreatest {k | EqdAll (stream52 n s.param) (cyc (T1 n s.param) (core n s)) v k} k ∧
        0 ≤ veq (v - 1) ∧ veq (v - 1) ≤ k ∧ (k : ℤ) ≤ veq (v - 1) + 1) ∧
      (∀ j, bitLen ≤ j → veq j = veq0 j) ∧
      sum = ∑ v ∈ Finset.Icc 1 bitLen, (((mexp / v : ℕ) : ℤ) - veq (v - 1)) := by
  obtain ⟨veq, sum, e1, e2, e3⟩ := calcSIMD_bounds_partial (G := simdOps n) Layout.d52
    (blocks52 hs.pos_pos hs.pos _) (rand := s) (fun a ha b h1 h2 => mode52 hs ha h1 h2) hχ hc
    (by show _ ≤ n * 104 + 128; omega) isCalc1pos_128 (fuel := 128 * (129 * mexp) + 129) (by omega) hm hm2 hbl veq0
  refine ⟨veq, sum, e1, fun v h1 h2 => ?_, e3⟩
  obtain ⟨k, k1, k2, k3, k4⟩ := e2 v h1 h2
  refine ⟨k, ?_, k2, k3, by push_cast at k4; omega⟩
  have hv : v ≤ 52 := h2.trans hbl
  have : {k | EqdAll (fun k => (flip 52 false).comp (stream52 n s.param k)) (cyc (T1 n s.param) (core n s)) v k} =
      {k | EqdAll (stream52 n s.param) (cyc (T1 n s.param) (core n s)) v k} := by
    have hf : ∀ k s' c, c < v → (flip 52 false).comp (stream52 n s.param k) s' c = stream52 n s.param k s' c := by
      intro k s' c hc
      show flip 52 false _ c = _
      rw [flip_apply, if_pos (by omega)]; rfl
    ext k
    refine forall_congr' fun j => forall_congr' fun a => exists_congr fun s' => and_congr_right fun _ =>
      forall_congr' fun i => forall_congr' fun _ => forall_congr' fun c => forall_congr' fun hc => ?_
    rw [hf _ _ _ hc]
  rwa [this] at k1

-- dSFMT521 with its published parameters, seeded: the hypotheses hold with the characteristic polynomial of the part of
-- the state space that the class uses.
example : ∃ (s : St) (χ : (ZMod 2)[X]), Inv 4 s ∧ χ.Monic ∧ χ.natDegree ≤ 544 ∧ 544 ≤ 4 * 104 + 128 ∧
    aeval (T1 4 s.param) χ (core 4 s) = 0 ∧ s.param.pos1 = 3 ∧ core 4 s ≠ 0 := by
  obtain ⟨h1, h2⟩ := ctorPar_inv (mexp := 521) (by decide) (p := ⟨3, 25, 0x000fbfefff77efff, 0x000ffeebfbdfbfdf⟩)
    (by decide) (by decide) (by decide) 0xcfb393d661638469 0xc166867883ae2adb 0xccaa588000000000 0x0000000000000001
  have hv : u64 (1 : W128) 0 &&& 0x000fffffffffffff ≠ 0 := by decide
  have h3 := (seed_inv h1 1).2.trans h2
  have hi := (seed_inv h1 1).1
  have hz := seed_ne_zero h1 rfl hv
  have hlow := (seed_low h1 rfl 1).1
  generalize hg : seed 1 (ctorPar 521 ⟨3, 25, 0x000fbfefff77efff, 0x000ffeebfbdfbfdf⟩ 0xcfb393d661638469
    0xc166867883ae2adb 0xccaa588000000000 0x0000000000000001) = g at h3 hi hz hlow
  have hp : g.param = ⟨3, 25, 0x000fbfefff77efff, 0x000ffeebfbdfbfdf⟩ := congrArg Cfg.p h3
  have hm : MskOK g.param := by rw [hp]; exact ⟨by decide, by decide⟩
  have hst : ∀ v ∈ Low 4, T1 4 g.param v ∈ Low 4 := fun v hv => T1_low hm hv
  refine ⟨g, ((T1 4 g.param).restrict hst).charpoly, hi, LinearMap.charpoly_monic _, ?_, by decide, ?_,
    by rw [hp], hz⟩
  · rw [LinearMap.charpoly_natDegree, finrank_low]; exact le_rfl
  · have hr := LinearMap.aeval_self_charpoly ((T1 4 g.param).restrict hst)
    have := aeval_map (T := (T1 4 g.param).restrict hst) (T' := T1 4 g.param) (Low 4).subtype (fun s => rfl)
      ((T1 4 g.param).restrict hst).charpoly ⟨core 4 g, hlow⟩
    rw [hr] at this
    exact this

end MTT.DSFMT
