import Verif.SIMD.Props
import Verif.Samples.SFMTProps
import Mathlib.LinearAlgebra.Charpoly.Basic

/-!
# C63 for the class `sfmt`
-/

namespace MTT.SFMT

open W128 PIS Polynomial SIMD

variable {n : ℕ}

/-- Lane `i` of the word that the start mode chooses: the lanes of `y` and `z` are counted one after the other; start
mode 0 begins with the lanes of `z`. -/
theorem u_select (m : ℕ) (hm : m < 4) (y z : W128) (i : ℕ) (hi : i < 4) :
    u (select m y z) i = if m ≠ 0 ∧ m + i < 4 then u y (m + i) else u z ((m + i) % 4) := by
  have hm' : m = 0 ∨ m = 1 ∨ m = 2 ∨ m = 3 := by omega
  have hi' : i = 0 ∨ i = 1 ∨ i = 2 ∨ i = 3 := by omega
  have e0 : select 0 y z = mk32 (u z 0) (u z 1) (u z 2) (u z 3) := rfl
  have e1 : select 1 y z = mk32 (u y 1) (u y 2) (u y 3) (u z 0) := rfl
  have e2 : select 2 y z = mk32 (u y 2) (u y 3) (u z 0) (u z 1) := rfl
  have e3 : select 3 y z = mk32 (u y 3) (u z 0) (u z 1) (u z 2) := rfl
  rcases hm' with rfl | rfl | rfl | rfl <;> rcases hi' with rfl | rfl | rfl | rfl <;>
    simp only [Nat.cast_zero, Nat.cast_one, Nat.cast_ofNat, e0, e1, e2, e3, (u_mk32 _ _ _ _).1, (u_mk32 _ _ _ _).2.1,
      (u_mk32 _ _ _ _).2.2.1, (u_mk32 _ _ _ _).2.2.2] <;> rfl

/-- The weight mode is the number of lanes that are of the new word. -/
theorem u_merge (b : ℕ) (h1 : 1 ≤ b) (h4 : b ≤ 4) (r q : W128) (i : ℕ) (hi : i < 4) :
    u (merge b r q) i = if i < b then u r i else u q i := by
  have hb' : b = 1 ∨ b = 2 ∨ b = 3 ∨ b = 4 := by omega
  have hi' : i = 0 ∨ i = 1 ∨ i = 2 ∨ i = 3 := by omega
  have e1 : merge 1 r q = mk32 (u r 0) (u q 1) (u q 2) (u q 3) := rfl
  have e2 : merge 2 r q = mk32 (u r 0) (u r 1) (u q 2) (u q 3) := rfl
  have e3 : merge 3 r q = mk32 (u r 0) (u r 1) (u r 2) (u q 3) := rfl
  have e4 : merge 4 r q = r := rfl
  rcases hb' with rfl | rfl | rfl | rfl <;> rcases hi' with rfl | rfl | rfl | rfl <;>
    simp only [Nat.cast_one, Nat.cast_ofNat, e1, e2, e3, e4, (u_mk32 _ _ _ _).1, (u_mk32 _ _ _ _).2.1,
      (u_mk32 _ _ _ _).2.2.1, (u_mk32 _ _ _ _).2.2.2] <;> rfl

theorem u64_congr {w w' : W128} {i i' : ℕ} (hi : i < 2) (hi' : i' < 2) (h0 : u w (2 * i) = u w' (2 * i'))
    (h1 : u w (2 * i + 1) = u w' (2 * i' + 1)) : u64 w i = u64 w' i' := by
  rw [← halves w i hi, ← halves w' i' hi', h0, h1]

theorem u64_select (m : ℕ) (hm : m < 2) (y z : W128) (i : ℕ) (hi : i < 2) :
    u64 (select (2 * m : ℕ) y z) i = if m ≠ 0 ∧ m + i < 2 then u64 y (m + i) else u64 z ((m + i) % 2) := by
  by_cases h : m ≠ 0 ∧ m + i < 2
  · rw [if_pos h]
    refine u64_congr hi (by omega) ?_ ?_
    · rw [u_select _ (by omega) _ _ _ (by omega), if_pos (by omega), Nat.mul_add]
    · rw [u_select _ (by omega) _ _ _ (by omega), if_pos (by omega), Nat.mul_add, Nat.add_assoc]
  · rw [if_neg h]
    refine u64_congr hi (by omega) ?_ ?_
    · rw [u_select _ (by omega) _ _ _ (by omega), if_neg (by omega)]; congr 1; omega
    · rw [u_select _ (by omega) _ _ _ (by omega), if_neg (by omega)]; congr 1; omega

theorem u64_merge (b : ℕ) (h1 : 1 ≤ b) (h4 : b ≤ 2) (r q : W128) (i : ℕ) (hi : i < 2) :
    u64 (merge (2 * b : ℕ) r q) i = if i < b then u64 r i else u64 q i := by
  by_cases h : i < b
  · rw [if_pos h]
    refine u64_congr hi hi ?_ ?_
    · rw [u_merge _ (by omega) (by omega) _ _ _ (by omega), if_pos (by omega)]
    · rw [u_merge _ (by omega) (by omega) _ _ _ (by omega), if_pos (by omega)]
  · rw [if_neg h]
    refine u64_congr hi hi ?_ ?_
    · rw [u_merge _ (by omega) (by omega) _ _ _ (by omega), if_neg (by omega)]
    · rw [u_merge _ (by omega) (by omega) _ _ _ (by omega), if_neg (by omega)]

theorem u64_xor (x y : W128) (i : ℕ) : u64 (x ^^^ y) i = u64 x i ^^^ u64 y i := by
  apply BitVec.eq_of_getLsbD_eq
  intro j hj
  rw [BitVec.getLsbD_xor, u64_bit, u64_bit, u64_bit, BitVec.getLsbD_xor]
  cases decide (j < 64) <;> simp

/-- The stream of 32-bit words of a ring: the words of the last block are the words 0 to 3, those of the next block the
words 4 to 7, and so on. -/
def stream32 (n : ℕ) (p : Par) (k : ℕ) : (Fin n → Wd 128) →ₗ[ZMod 2] V :=
  (linOf (fun v : Fin n → Wd 128 => bits (u (at' v (n - 1)) (k % 4))) (fun v v' => by
    rw [at_add, u_xor, bits_xor])).comp (T1 n p ^ (k / 4))

/-- The stream of 64-bit words. -/
def stream64 (n : ℕ) (p : Par) (k : ℕ) : (Fin n → Wd 128) →ₗ[ZMod 2] V :=
  (linOf (fun v : Fin n → Wd 128 => bits (u64 (at' v (n - 1)) (k % 2))) (fun v v' => by
    rw [at_add, u64_xor, bits_xor])).comp (T1 n p ^ (k / 2))

theorem stream32_apply (p : Par) (k : ℕ) (v : Fin n → Wd 128) :
    stream32 n p k v = bits (u (at' ((T1 n p ^ (k / 4)) v) (n - 1)) (k % 4)) := rfl

theorem stream64_apply (p : Par) (k : ℕ) (v : Fin n → Wd 128) :
    stream64 n p k v = bits (u64 (at' ((T1 n p ^ (k / 2)) v) (n - 1)) (k % 2)) := rfl

theorem at_T1 (hn : 1 ≤ n) (p : Par) (v : Fin n → Wd 128) : at' (T1 n p v) (n - 1) = newOf p v := by
  unfold at'
  rw [dif_pos (by omega)]
  show (shiftIn n v (Wd.of (newOf p v)) ⟨n - 1, _⟩).val = newOf p v
  unfold shiftIn
  rw [dif_neg (by show ¬ (n - 1 + 1 < n); omega)]
  rfl

theorem cyc_onto {p : Par} (h3 : 3 ≤ n) (hpos : 1 ≤ p.pos1) (hn : p.pos1 < n) (hp : ParOK p) (v : Fin n → Wd 128) :
    ∀ s ∈ cyc (T1 n p) v, ∃ r ∈ cyc (T1 n p) v, T1 n p r = s := by
  have hinj := (T1_bijective h3 hpos hn hp).1
  have hst : ∀ s ∈ cyc (T1 n p) v, T1 n p s ∈ cyc (T1 n p) v := fun s => cyc_T _
  have h1 : Function.Injective ((T1 n p).restrict hst) := by
    intro x y h
    exact Subtype.ext (hinj (congrArg Subtype.val h))
  have h2 := LinearMap.injective_iff_surjective.1 h1
  intro s hs
  obtain ⟨r, hr⟩ := h2 ⟨s, hs⟩
  exact ⟨r, r.2, congrArg Subtype.val hr⟩

theorem blocks32 {p : Par} (h3 : 3 ≤ n) (hpos : 1 ≤ p.pos1) (hn : p.pos1 < n) (hp : ParOK p) (v : Fin n → Wd 128) :
    Blocks (stream32 n p) (cyc (T1 n p) v) (T1 n p) 4 := by
  refine ⟨fun k s => ?_, fun s => cyc_T _, cyc_onto h3 hpos hn hp v⟩
  rw [stream32_apply, stream32_apply, Nat.add_div_right _ (by decide), Nat.add_mod_right, pow_succ,
    Module.End.mul_apply]

theorem blocks64 {p : Par} (h3 : 3 ≤ n) (hpos : 1 ≤ p.pos1) (hn : p.pos1 < n) (hp : ParOK p) (v : Fin n → Wd 128) :
    Blocks (stream64 n p) (cyc (T1 n p) v) (T1 n p) 2 := by
  refine ⟨fun k s => ?_, fun s => cyc_T _, cyc_onto h3 hpos hn hp v⟩
  rw [stream64_apply, stream64_apply, Nat.add_div_right _ (by decide), Nat.add_mod_right, pow_succ,
    Module.End.mul_apply]

/-- The interface that `calc_SIMD_equidistribution` uses. -/
def simdOps (n : ℕ) : SIMDOps St where
  gen := ops n
  setStart := setStartMode
  setWeight := setWeightMode

/-- The object in a pair of modes, as `calc_SIMD_equidistribution` makes it. -/
theorem mode_start {s : St} (hs : Inv n s) (a b : ℤ) :
    Inv n (generate (setWeightMode b (setStartMode a s))).1 ∧
    cfg (generate (setWeightMode b (setStartMode a s))).1 = ⟨s.param, a, b, s.rev⟩ ∧
    den n (generate (setWeightMode b (setStartMode a s))).1 =
      T n ⟨s.param, a, b, s.rev⟩ (Ring.vec n s.state s.index, 0) := by
  have hi : Inv n (setWeightMode b (setStartMode a s)) :=
    ⟨hs.three, hs.size, hs.index, hs.pos_pos, hs.pos, hs.ok⟩
  obtain ⟨⟨h1, h2⟩, h3, -⟩ := generate_spec hi
  exact ⟨h1, h2, h3⟩

/-- The output after one more step, from the ring alone. -/
theorem out_T (c : Cfg) (v : Fin n → Wd 128) :
    out c (T n c (v, 0)) = merge c.weight (selOf c (T1 n c.p v)) (selOf c v) := by
  rw [merge_eq]; rfl

/-- What every mode does, up to the lanes. -/
theorem mode_lin {s : St} (hs : Inv n s) (hr : s.rev = false) (a b : ℤ) {L E : ℕ} {pos : ℕ → ℕ → ℕ} {x : ℕ → (Fin n → Wd 128) →ₗ[ZMod 2] V}
    {a' b' d : ℕ}
    (h : ∀ v : Fin n → Wd 128, ∀ i < E, ∀ c < L,
      bits (merge b (selOf ⟨s.param, a, b, s.rev⟩ (T1 n s.param v)) (selOf ⟨s.param, a, b, s.rev⟩ v)) (pos i c) =
        x (a' + E * d + (if i < b' then E else 0) + i) v c) :
    Mode (ops n) L E pos (generate (setWeightMode b (setStartMode a s))).1 a' b' x (T1 n s.param)
      (Ring.vec n s.state s.index) := by
  obtain ⟨h1, h2, h3⟩ := mode_start hs a b
  refine ⟨S n, inferInstance, inferInstance, _, _, _, _,
    (T n ⟨s.param, a, b, s.rev⟩).comp (LinearMap.inl (ZMod 2) (Fin n → Wd 128) (Wd 128)),
    linGen (n := n) ⟨s.param, a, b, s.rev⟩ hr, ⟨h1, h2⟩, h3, fun v => rfl, d, fun v i hi c hc => ?_⟩
  rw [← h v i hi c hc]
  show bits (out _ (T n _ (v, 0))) _ = _
  rw [out_T]

theorem block_select32 (hn : 1 ≤ n) (c : Cfg) {a : ℕ} (ha : a < 4) (hc : c.start = a) (v : Fin n → Wd 128) {i : ℕ}
    (hi : i < 4) : bits (u (selOf c v) i) = stream32 n c.p (a + 4 * (if a = 0 then 1 else 0) + i) v := by
  unfold selOf
  rw [hc, u_select a ha _ _ i hi, stream32_apply]
  by_cases h0 : a = 0
  · subst h0
    rw [if_neg (by omega), if_pos rfl, show (0 + 4 * 1 + i) / 4 = 1 by omega, pow_one, at_T1 hn]
    congr 2; omega
  · rw [if_neg h0]
    by_cases h1 : a + i < 4
    · rw [if_pos ⟨h0, h1⟩, show (a + 4 * 0 + i) / 4 = 0 by omega, show (a + 4 * 0 + i) % 4 = a + i by omega, pow_zero]
      rfl
    · rw [if_neg (by omega), show (a + 4 * 0 + i) / 4 = 1 by omega, pow_one, at_T1 hn]
      congr 2

theorem block_select64 (hn : 1 ≤ n) (c : Cfg) {a : ℕ} (ha : a < 2) (hc : c.start = (2 * a : ℕ)) (v : Fin n → Wd 128)
    {i : ℕ} (hi : i < 2) : bits (u64 (selOf c v) i) = stream64 n c.p (a + 2 * (if a = 0 then 1 else 0) + i) v := by
  unfold selOf
  rw [hc, u64_select a ha _ _ i hi, stream64_apply]
  by_cases h0 : a = 0
  · subst h0
    rw [if_neg (by omega), if_pos rfl, show (0 + 2 * 1 + i) / 2 = 1 by omega, pow_one, at_T1 hn]
    congr 2; omega
  · rw [if_neg h0]
    by_cases h1 : a + i < 2
    · rw [if_pos ⟨h0, h1⟩, show (a + 2 * 0 + i) / 2 = 0 by omega, show (a + 2 * 0 + i) % 2 = a + i by omega, pow_zero]
      rfl
    · rw [if_neg (by omega), show (a + 2 * 0 + i) / 2 = 1 by omega, pow_one, at_T1 hn]
      congr 2

/-- **C63.**  The start and weight modes of `sfmt` with 32-bit words. -/
theorem mode32 {s : St} (hs : Inv n s) (hr : s.rev = false) {a b : ℕ} (ha : a < 4) (hb1 : 1 ≤ b) (hb : b ≤ 4) :
    Mode (ops n) 32 4 (fun i c => (4 - 1 - i) * 32 + c) (generate (setWeightMode (1 * b : ℕ) (setStartMode (1 * a : ℕ) s))).1 a b (stream32 n s.param)
      (T1 n s.param) (Ring.vec n s.state s.index) := by
  rw [Nat.one_mul, Nat.one_mul]
  have hn : 1 ≤ n := by have := hs.three; omega
  refine mode_lin hs hr a b (d := if a = 0 then 1 else 0) fun v i hi c hc => ?_
  rw [← bits_u _ i c hi hc, u_merge b hb1 hb _ _ i hi]
  by_cases h : i < b
  · rw [if_pos h, if_pos h, block_select32 hn _ ha rfl _ hi,
      show a + 4 * (if a = 0 then 1 else 0) + 4 + i = a + 4 * (if a = 0 then 1 else 0) + i + 4 by omega]
    rw [(blocks32 hs.three hs.pos_pos hs.pos hs.ok v).shift]
  · rw [if_neg h, if_neg h, block_select32 hn _ ha rfl _ hi]; rfl

/-- **C63.**  The start and weight modes of `sfmt` with 64-bit words. -/
theorem mode64 {s : St} (hs : Inv n s) (hr : s.rev = false) {a b : ℕ} (ha : a < 2) (hb1 : 1 ≤ b) (hb : b ≤ 2) :
    Mode (ops n) 64 2 (fun i c => (2 - 1 - i) * 64 + c) (generate (setWeightMode (2 * b : ℕ) (setStartMode (2 * a : ℕ) s))).1 a b (stream64 n s.param)
      (T1 n s.param) (Ring.vec n s.state s.index) := by
  have hn : 1 ≤ n := by have := hs.three; omega
  refine mode_lin hs hr (2 * a : ℕ) (2 * b : ℕ) (d := if a = 0 then 1 else 0) fun v i hi c hc => ?_
  rw [← bits_u64 _ i c hi hc, u64_merge b hb1 hb _ _ i hi]
  by_cases h : i < b
  · rw [if_pos h, if_pos h, block_select64 hn _ ha rfl _ hi,
      show a + 2 * (if a = 0 then 1 else 0) + 2 + i = a + 2 * (if a = 0 then 1 else 0) + i + 2 by omega]
    rw [(blocks64 hs.three hs.pos_pos hs.pos hs.ok v).shift]
  · rw [if_neg h, if_neg h, block_select64 hn _ ha rfl _ hi]; rfl

/-- **C63.**  The stream is what the generator produces: its words from number 4 on are the 32-bit words of the outputs
of the object in start mode 0 and weight mode 4. -/
theorem stream32_out {s : St} (hs : Inv n s) (hr : s.rev = false) (k : ℕ) :
    stream32 n s.param (k + 4) (Ring.vec n s.state s.index) =
      bits (u (outAt (ops n) (setWeightMode 4 (setStartMode 0 s)) (k / 4)) (k % 4)) := by
  have hi : Inv n (setWeightMode 4 (setStartMode 0 s)) := ⟨hs.three, hs.size, hs.index, hs.pos_pos, hs.pos, hs.ok⟩
  have hc : cfg (setWeightMode 4 (setStartMode 0 s)) = ⟨s.param, 0, 4, s.rev⟩ := rfl
  have ho := outAt_spec (linGen (n := n) ⟨s.param, 0, 4, s.rev⟩ hr) (g := setWeightMode 4 (setStartMode 0 s)) ⟨hi, hc⟩ (k / 4)
  have hT : ∀ t (x : S n), ((T n ⟨s.param, 0, 4, s.rev⟩ ^ t) x).1 = (T1 n s.param ^ t) x.1 := by
    intro t
    induction t with
    | zero => intro x; rfl
    | succ t ih => intro x; rw [pow_succ, pow_succ, Module.End.mul_apply, Module.End.mul_apply, ih]; rfl
  have hsec : ((T n ⟨s.param, 0, 4, s.rev⟩ ^ (k / 4)) (den n (setWeightMode 4 (setStartMode 0 s)))).2 = 0 := by
    cases k / 4 with
    | zero =>
      show Wd.of (mk64 0 0 &&& keep 4) = Wd.of 0
      rw [show keep 4 = 0 from rfl, show mk64 0 0 &&& (0 : W128) = 0 from BitVec.and_zero]
    | succ t =>
      rw [pow_succ', Module.End.mul_apply]
      show Wd.of (selOf _ _ &&& keep 4) = Wd.of 0
      rw [show keep 4 = 0 from rfl, show ∀ x : W128, x &&& 0 = 0 from fun x => BitVec.and_zero]
  have hw : outAt (ops n) (setWeightMode 4 (setStartMode 0 s)) (k / 4) =
      newOf s.param ((T1 n s.param ^ (k / 4)) (Ring.vec n s.state s.index)) := by
    apply bits_inj
    rw [ho]
    show bits (out _ _) = _
    congr 1
    unfold out
    rw [hsec, hT]
    show (selOf _ _ &&& ~~~ keep 4) ^^^ (0 : W128) = _
    rw [show keep 4 = 0 from rfl, show ~~~ (0 : W128) = BitVec.allOnes 128 by decide, BitVec.and_allOnes]
    refine (BitVec.xor_zero).trans ?_
    exact mk32_eta _
  rw [hw, stream32_apply, Nat.add_div_right _ (by decide), Nat.add_mod_right, pow_succ', Module.End.mul_apply,
    at_T1 (by have := hs.three; omega)]

/-- **C63 for `sfmt`** with 32-bit words, as `sfmtdc.cpp` uses it: the elements of `veq` are at most the dimensions of
equidistribution `k(v)` of the stream of 32-bit words, and short of them by at most 3. -/
theorem simd32_partial {s : St} (hs : Inv n s) (hr : s.rev = false) {χ : (ZMod 2)[X]} (hχ : χ.Monic)
    (hc : aeval (T1 n s.param) χ (Ring.vec n s.state s.index) = 0) {mexp : ℕ} (hm : χ.natDegree ≤ mexp)
    (hb : mexp ≤ n * 128) (hm2 : mexp < 2 ^ 31) (lsb : Bool) {bitLen : ℕ} (hbl : bitLen ≤ 32) (veq0 : ℕ → ℤ) :
    ∃ veq sum, calcSIMD (simdOps n) (simdAlg info32 lsb) calc1posWrap (128 * (129 * mexp) + 129) mexp bitLen s veq0 =
        .ok (veq, sum) ∧
      (∀ v, 1 ≤ v → v ≤ bitLen → ∃ k : ℕ,
        IsGreatest {k | EqdAll (fun k => (flip 32 lsb).comp (stream32 n s.param k))
          (cyc (T1 n s.param) (Ring.vec n s.state s.index)) v k} k ∧
        0 ≤ veq (v - 1) ∧ veq (v - 1) ≤ k ∧ (k : ℤ) ≤ veq (v - 1) + 3) ∧
      (∀ j, bitLen ≤ j → veq j = veq0 j) ∧
      sum = ∑ v ∈ Finset.Icc 1 bitLen, (((mexp / v : ℕ) : ℤ) - veq (v - 1)) := by
  obtain ⟨veq, sum, e1, e2, e3⟩ := calcSIMD_bounds_partial (G := simdOps n)
    (Layout.w32 lsb)
    (blocks32 hs.three hs.pos_pos hs.pos hs.ok _) (rand := s) (fun a ha b h1 h2 => mode32 hs hr ha h1 h2) hχ hc
    (by show _ ≤ n * 128; omega) isCalc1pos_128 (fuel := 128 * (129 * mexp) + 129) (by omega) hm hm2 hbl veq0
  refine ⟨veq, sum, e1, fun v h1 h2 => ?_, e3⟩
  obtain ⟨k, k1, k2, k3, k4⟩ := e2 v h1 h2
  exact ⟨k, k1, k2, k3, by push_cast at k4; omega⟩

/-- **C63 for `sfmt`** with 64-bit words: short by at most 1. -/
theorem simd64_partial {s : St} (hs : Inv n s) (hr : s.rev = false) {χ : (ZMod 2)[X]} (hχ : χ.Monic)
    (hc : aeval (T1 n s.param) χ (Ring.vec n s.state s.index) = 0) {mexp : ℕ} (hm : χ.natDegree ≤ mexp)
    (hb : mexp ≤ n * 128) (hm2 : mexp < 2 ^ 31) (lsb : Bool) {bitLen : ℕ} (hbl : bitLen ≤ 64) (veq0 : ℕ → ℤ) :
    ∃ veq sum, calcSIMD (simdOps n) (simdAlg info64 lsb) calc1posWrap (128 * (129 * mexp) + 129) mexp bitLen s veq0 =
        .ok (veq, sum) ∧
      (∀ v, 1 ≤ v → v ≤ bitLen → ∃ k : ℕ,
        IsGreatest {k | EqdAll (fun k => (flip 64 lsb).comp (stream64 n s.param k))
          (cyc (T1 n s.param) (Ring.vec n s.state s.index)) v k} k ∧
        0 ≤ veq (v - 1) ∧ veq (v - 1) ≤ k ∧ (k : ℤ) ≤ veq (v - 1) + 1) ∧
      (∀ j, bitLen ≤ j → veq j = veq0 j) ∧
      sum = ∑ v ∈ Finset.Icc 1 bitLen, (((mexp / v : ℕ) : ℤ) - veq (v - 1)) := by
  obtain ⟨veq, sum, e1, e2, e3⟩ := calcSIMD_bounds_partial (G := simdOps n)
    (Layout.w64 lsb)
    (blocks64 hs.three hs.pos_pos hs.pos hs.ok _) (rand := s) (fun a ha b h1 h2 => mode64 hs hr ha h1 h2) hχ hc
    (by show _ ≤ n * 128; omega) isCalc1pos_128 (fuel := 128 * (129 * mexp) + 129) (by omega) hm hm2 hbl veq0
  refine ⟨veq, sum, e1, fun v h1 h2 => ?_, e3⟩
  obtain ⟨k, k1, k2, k3, k4⟩ := e2 v h1 h2
  exact ⟨k, k1, k2, k3, by push_cast at k4; omega⟩

-- SFMT19937 with its published parameters: the hypotheses hold with the characteristic polynomial of the ring.
example : ∃ (s : St) (χ : (ZMod 2)[X]), Inv 156 s ∧ s.rev = false ∧ χ.Monic ∧ χ.natDegree ≤ 156 * 128 ∧ 156 * 128 < 2 ^ 31 ∧
    aeval (T1 156 s.param) χ (Ring.vec 156 s.state s.index) = 0 ∧ s.param.pos1 = 122 ∧ isZero s = false := by
  have hp : ParOK ⟨122, 18, 1, 11, 1, 0xdfffffef, 0xddfecb7f, 0xbffaffff, 0xbffffff6⟩ :=
    ⟨by decide, by decide, by decide, by decide, by decide, by decide⟩
  obtain ⟨h1, h2⟩ := ctorPar_inv (mexp := 19937) (by decide) hp (by decide) (by decide) 1 0 0 0x13c9e684
  have h3 := (seed_inv h1 1).2.trans h2
  generalize hg : seed 1 (ctorPar 19937 ⟨122, 18, 1, 11, 1, 0xdfffffef, 0xddfecb7f, 0xbffaffff, 0xbffffff6⟩ 1 0 0
    0x13c9e684) = g at h3
  refine ⟨g, (T1 156 g.param).charpoly, hg ▸ (seed_inv h1 1).1, congrArg Cfg.rev h3, LinearMap.charpoly_monic _, ?_,
    by decide, ?_, congrArg (fun c : Cfg => c.p.pos1) h3, hg ▸ seed_ne_zero h1 (by decide)⟩
  · rw [LinearMap.charpoly_natDegree, finrank_ring]; exact le_rfl
  · rw [LinearMap.aeval_self_charpoly]; rfl

end MTT.SFMT
