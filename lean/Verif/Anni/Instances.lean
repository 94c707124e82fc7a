import Verif.Anni.Props
import Verif.Parity.SFMT
import Verif.SIMD.SFMT

/-!
# C65, C66 for the classes `sfmt` and `dSFMT`
-/

namespace MTT.SFMT

open Polynomial PIS W128 Parity Anni
open Search (IsVecMinpoly)

variable {n : ℕ}

theorem eq_zero_of_lanes {x : W128} (h0 : u x 0 = 0) (h1 : u x 1 = 0) (h2 : u x 2 = 0) (h3 : u x 3 = 0) : x = 0 := by
  rw [← mk32_eta x, h0, h1, h2, h3]; decide

theorem lanes_of_mk32 {a b c d : BitVec 32} (h : mk32 a b c d = 0) : a = 0 ∧ b = 0 ∧ c = 0 ∧ d = 0 := by
  obtain ⟨h0, h1, h2, h3⟩ := u_mk32 a b c d
  rw [h] at h0 h1 h2 h3
  exact ⟨h0.symm.trans (by decide), h1.symm.trans (by decide), h2.symm.trans (by decide), h3.symm.trans (by decide)⟩

/-- Two consecutive outputs determine the word between them. -/
theorem select_zero (m : ℤ) {a b c : W128} (h1 : select m a b = 0) (h2 : select m b c = 0) : b = 0 := by
  unfold select at h1 h2
  split at h1
  · obtain ⟨p0, p1, p2, p3⟩ := lanes_of_mk32 h1
    exact eq_zero_of_lanes p0 p1 p2 p3
  next hm0 =>
  rw [if_neg hm0] at h2
  split at h1
  next hm1 =>
    rw [if_pos hm1] at h2
    obtain ⟨-, -, -, p3⟩ := lanes_of_mk32 h1
    obtain ⟨q0, q1, q2, -⟩ := lanes_of_mk32 h2
    exact eq_zero_of_lanes p3 q0 q1 q2
  next hm1 =>
  rw [if_neg hm1] at h2
  split at h1
  next hm2 =>
    rw [if_pos hm2] at h2
    obtain ⟨-, -, p2, p3⟩ := lanes_of_mk32 h1
    obtain ⟨q0, q1, -, -⟩ := lanes_of_mk32 h2
    exact eq_zero_of_lanes p2 p3 q0 q1
  next hm2 =>
    rw [if_neg hm2] at h2
    obtain ⟨-, p1, p2, p3⟩ := lanes_of_mk32 h1
    obtain ⟨q0, -, -, -⟩ := lanes_of_mk32 h2
    exact eq_zero_of_lanes p1 p2 p3 q0

theorem at_T1_lt (p : Par) (v : Fin n → Wd 128) {k : ℕ} (hk : k + 1 < n) : at' (T1 n p v) k = at' v (k + 1) := by
  unfold at'
  rw [dif_pos (show k < n by omega), dif_pos hk]
  show (shiftIn n v (Wd.of (newOf p v)) ⟨k, _⟩).val = _
  unfold shiftIn
  rw [dif_pos hk]

/-- The words of the ring after `i` steps are the last words of the earlier rings. -/
theorem at_pow (p : Par) (v : Fin n → Wd 128) {k : ℕ} (hk : k < n) (i : ℕ) :
    at' ((T1 n p ^ (i + (n - 1 - k))) v) k = at' ((T1 n p ^ i) v) (n - 1) := by
  obtain ⟨d, hd⟩ : ∃ d, n - 1 - k = d := ⟨_, rfl⟩
  rw [hd]
  induction d generalizing k with
  | zero => rw [show k = n - 1 by omega, Nat.add_zero]
  | succ d ih =>
    rw [← Nat.add_assoc, pow_succ', Module.End.mul_apply, at_T1_lt p _ (by omega), ih (by omega) (by omega)]

theorem pow_fst (c : Cfg) (x : S n) (i : ℕ) : ((T n c ^ i) x).1 = (T1 n c.p ^ i) x.1 := by
  induction i with
  | zero => rfl
  | succ i ih => rw [pow_succ', pow_succ', Module.End.mul_apply, Module.End.mul_apply, ← ih]; rfl

/-- In weight mode 4 the outputs of an SFMT object determine its state, in every start mode. -/
theorem obs {c : Cfg} (h4 : c.weight = 4) (h3 : 3 ≤ n) (hpos : 1 ≤ c.p.pos1) (hn : c.p.pos1 < n) (hp : ParOK c.p) :
    ObsO 128 (n * 128) (unit n) (T n c) (O n c) := by
  intro x hx hout
  rw [M_full, mem_full] at hx
  have hsel : ∀ i, select c.start (at' ((T1 n c.p ^ i) x.1) (n - 1)) (at' ((T1 n c.p ^ (i + 1)) x.1) (n - 1)) = 0 := by
    intro i
    have hmem : ((T n c ^ i) x).2 = 0 := by
      cases i with
      | zero => exact hx
      | succ i =>
        rw [pow_succ', Module.End.mul_apply]
        show Wd.of (selOf c _ &&& keep c.weight) = 0
        rw [h4, show keep 4 = 0 from if_pos rfl, show selOf c ((T n c ^ i) x).1 &&& (0 : W128) = 0 from BitVec.and_zero]
        rfl
    have h1 : bits (out c ((T n c ^ i) x)) = bits (0 : W128) := by
      funext j
      by_cases hj : j < 128
      · exact (hout i j hj).trans (by simp [bits])
      · have : ∀ y : W128, bits y j = 0 := fun y => by
          unfold bits; rw [BitVec.getMsbD_of_ge _ _ (by omega)]; rfl
        rw [this, this]
    have h2 := bits_inj h1
    unfold out at h2
    rw [hmem, h4, show keep 4 = 0 from if_pos rfl, show ~~~ (0 : W128) = BitVec.allOnes 128 by decide,
      BitVec.and_allOnes, show ((0 : Wd 128).val) = (0 : W128) from rfl, pow_fst] at h2
    rw [show ∀ y : W128, y ^^^ (0 : W128) = y from fun y => BitVec.xor_zero] at h2
    unfold selOf at h2
    rw [pow_succ', Module.End.mul_apply, at_T1 (by omega)]
    exact h2
  have hzero : ∀ i, at' ((T1 n c.p ^ (i + 1)) x.1) (n - 1) = 0 := fun i => select_zero _ (hsel i) (hsel (i + 1))
  have hring : (T1 n c.p ^ n) x.1 = 0 := by
    funext j
    have h1 := at_pow c.p x.1 j.2 (j.1 + 1)
    rw [hzero, show j.1 + 1 + (n - 1 - j.1) = n by have := j.2; omega] at h1
    exact (at_val _ j.2).symm.trans (by rw [h1]; rfl)
  refine Prod.ext ?_ hx
  exact Anni.pow_injective (T1_bijective h3 hpos hn hp).1 n (hring.trans (map_zero _).symm)

theorem den_full {s : St} (h4 : s.weightMode = 4) : den n s ∈ M (n * 128) (unit n) := by
  rw [M_full, mem_full]
  show Wd.of (s.previous &&& keep s.weightMode) = 0
  rw [h4, show keep 4 = 0 from if_pos rfl, show s.previous &&& (0 : W128) = 0 from BitVec.and_zero]
  rfl

/-- **C65 for `sfmt`.**  `anni` on any object in weight mode 4 (the mode of the constructors), for all parameters that
the class makes, all start modes and all `mexp` for which the state has fewer than `2 mexp` bits. -/
theorem anni_correct {mps : Search.MPS} (hm : MinPolySeqSpec mps) {mexp : ℕ} (h1 : 1 ≤ mexp) (hbig : n * 128 < 2 * mexp)
    {s : St} (hs : Inv n s) (hr : s.rev = false) (h4 : s.weightMode = 4) :
    ∃ s' b p, anniS mps (rops n mexp) s = some (s', b) ∧ IsSeqMinpoly p (Search.bitAt (ops n) s 0) ∧
      (b = false → s' = stateAt (ops n) s (2 * (n * 128)) ∧ ∀ f, Irreducible f → f.natDegree = mexp → ¬ f ∣ p) ∧
      (b = true → ∃ f, Irreducible f ∧ f.natDegree = mexp ∧ f ∣ p ∧ Inv n s' ∧ cfg s' = cfg s ∧
        IsVecMinpoly (T n (cfg s)) (den n s') f ∧
        ((2 ^ mexp - 1).Prime → ∀ k, den n (stateAt (ops n) s' k) = den n s' ↔ 2 ^ mexp - 1 ∣ k)) := by
  have hR := redGen (n := n) (cfg s) mexp hr h4 hs.pos_pos hs.pos hs.three hs.ok
  obtain ⟨s', b, p, e1, e2, e3, e4⟩ := anniS_correct hm hR (by decide) h1 hbig
    (obs (c := cfg s) h4 hs.three hs.pos_pos hs.pos hs.ok) (s := s) ⟨hs, rfl⟩ (den_full h4)
  refine ⟨s', b, p, e1, e2, e3, fun hb => ?_⟩
  obtain ⟨f, f1, f2, f3, f4⟩ := e4 hb
  exact ⟨f, f1, f2, f3, f4.1.1, f4.1.2, f4.2.2, fun hp => isolated_period hR f1 f2 hp f4⟩

/-- The hypotheses are met by an SFMT607 object after `seed`. -/
example (p : Par) (hp : ParOK p) (h1 : 1 ≤ p.pos1) (h2 : p.pos1 < 5) (a b c d : BitVec 32) (v : W128) :
    Inv 5 (seed v (ctorPar 607 p a b c d)) ∧ (seed v (ctorPar 607 p a b c d)).rev = false ∧
      (seed v (ctorPar 607 p a b c d)).weightMode = 4 ∧ 5 * 128 < 2 * 607 :=
  ⟨(seed_inv (ctorPar_inv (mexp := 607) (by decide) hp h1 h2 a b c d).1 v).1, rfl, rfl, by decide⟩

end MTT.SFMT

namespace MTT.DSFMT

open Polynomial PIS W128 Parity Anni
open Search (IsVecMinpoly)
open SFMT (at' at_val)

variable {n : ℕ}

theorem shl2_zero (k : ℕ) : shl2 (0 : W128) k = 0 := by
  have := shl2_xor 0 0 k
  rw [show (0 : W128) ^^^ 0 = 0 by decide, BitVec.xor_self] at this
  exact this

theorem shl2_iter (x : W128) {k : ℕ} (hk : 1 ≤ k) : (fun y => shl2 y k)^[64] x = 0 := by
  have h : ∀ m, (fun y => shl2 y k)^[m] x = mk64 (u64 x 0 <<< (m * k)) (u64 x 1 <<< (m * k)) := by
    intro m
    induction m with
    | zero =>
      rw [Nat.zero_mul, BitVec.shiftLeft_zero, BitVec.shiftLeft_zero]
      exact (mk64_u64 x).symm
    | succ m ih =>
      rw [Function.iterate_succ_apply', ih]
      show mk64 _ _ = _
      rw [(u64_mk64 _ _).1, (u64_mk64 _ _).2, ← BitVec.shiftLeft_add, ← BitVec.shiftLeft_add, Nat.succ_mul]
  have hz : ∀ y : BitVec 64, y <<< (64 * k) = 0 := fun y => BitVec.shiftLeft_eq_zero (by omega)
  rw [h 64, hz, hz]; decide

theorem at_T1_lt (p : Par) (v : (Fin n → Wd 128) × Wd 128) {k : ℕ} (hk : k + 1 < n) :
    at' (T1 n p v).1 k = at' v.1 (k + 1) := by
  unfold at'
  rw [dif_pos (show k < n by omega), dif_pos hk]
  show (shiftIn n v.1 (Wd.of (wordOf p v)) ⟨k, _⟩).val = _
  unfold shiftIn
  rw [dif_pos hk]

theorem at_T1_last (hn : 1 ≤ n) (p : Par) (v : (Fin n → Wd 128) × Wd 128) :
    at' (T1 n p v).1 (n - 1) = wordOf p v := by
  unfold at'
  rw [dif_pos (by omega)]
  show (shiftIn n v.1 (Wd.of (wordOf p v)) ⟨n - 1, _⟩).val = _
  unfold shiftIn
  rw [dif_neg (by show ¬ (n - 1 + 1 < n); omega)]
  rfl

/-- A state whose lungs are zero from the first step on is zero. -/
theorem lungs_determine {p : Par} (hpos : 1 ≤ p.pos1) (hn : p.pos1 < n) (hsl : 1 ≤ p.sl1)
    {v : (Fin n → Wd 128) × Wd 128} (h : ∀ i, ((T1 n p ^ (i + 1)) v).2.val = 0) : v = 0 := by
  have hl : ∀ i, lungOf p ((T1 n p ^ i) v) = 0 := by
    intro i
    have := h i
    rw [pow_succ', Module.End.mul_apply] at this
    exact this
  -- with zero lungs the words only rotate
  have hrot : ∀ i k, k < n → at' ((T1 n p ^ i) v).1 k = at' v.1 ((i + k) % n) := by
    intro i
    induction i with
    | zero => intro k hk; rw [Nat.zero_add, Nat.mod_eq_of_lt hk]; rfl
    | succ i ih =>
      intro k hk
      rw [pow_succ', Module.End.mul_apply]
      by_cases hk' : k + 1 < n
      · rw [at_T1_lt p _ hk', ih _ hk']; congr 2; omega
      · rw [show k = n - 1 by omega, at_T1_last (by omega)]
        unfold wordOf
        rw [hl]
        unfold newWord
        rw [show shr2 (0 : W128) 12 = 0 by decide, show (0 : W128) &&& mk64 p.msk1 p.msk2 = 0 from BitVec.zero_and,
          show (0 : W128) ^^^ 0 = 0 by decide,
          show ∀ y : W128, (0 : W128) ^^^ y = y from fun y => BitVec.zero_xor, ih 0 (by omega),
          show i + 1 + (n - 1) = i + n by omega, Nat.add_mod_right, Nat.add_zero]
  -- each word is the shifted earlier one
  have hchain : ∀ i, 1 ≤ i → at' v.1 ((i + p.pos1) % n) = shl2 (at' v.1 (i % n)) p.sl1 := by
    intro i hi
    have h1 := hl i
    have h2 := h (i - 1)
    rw [show i - 1 + 1 = i by omega] at h2
    unfold lungOf newLung at h1
    rw [h2, hrot i 0 (by omega), hrot i _ hn, Nat.add_zero, show swap (0 : W128) = 0 by decide,
      show ∀ y : W128, y ^^^ (0 : W128) = y from fun y => BitVec.xor_zero] at h1
    generalize shl2 (at' v.1 (i % n)) p.sl1 = a at h1 ⊢
    generalize at' v.1 ((i + p.pos1) % n) = b at h1 ⊢
    exact (BitVec.xor_eq_zero_iff.mp h1).symm
  have hiter : ∀ m i, 1 ≤ i → at' v.1 ((i + m * p.pos1) % n) = (fun y => shl2 y p.sl1)^[m] (at' v.1 (i % n)) := by
    intro m
    induction m with
    | zero => intro i _; rw [Nat.zero_mul, Nat.add_zero]; rfl
    | succ m ih =>
      intro i hi
      rw [Nat.succ_mul, ← Nat.add_assoc, hchain _ (by omega), ih i hi, Function.iterate_succ_apply']
  have hit0 : ∀ m, (fun y => shl2 y p.sl1)^[m] (0 : W128) = 0 := by
    intro m
    induction m with
    | zero => rfl
    | succ m ih => rw [Function.iterate_succ_apply', ih]; exact shl2_zero _
  have hwords : ∀ k, k < n → at' v.1 k = 0 := by
    intro k hk
    have h1 := hiter (64 * n) (k + n) (by omega)
    rw [show k + n + 64 * n * p.pos1 = k + n * (1 + 64 * p.pos1) by ring, Nat.add_mul_mod_self_left,
      Nat.add_mod_right, Nat.mod_eq_of_lt hk, show 64 * n = 64 * (n - 1) + 64 by omega, Function.iterate_add_apply,
      shl2_iter _ hsl, hit0] at h1
    exact h1
  have hlung : v.2.val = 0 := by
    have h1 := hl 0
    unfold lungOf newLung at h1
    rw [pow_zero, Module.End.one_apply, hwords 0 (by omega), hwords _ hn, shl2_zero,
      show ∀ y : W128, (0 : W128) ^^^ y = y from fun y => BitVec.zero_xor,
      show ∀ y : W128, y ^^^ (0 : W128) = y from fun y => BitVec.xor_zero] at h1
    have := congrArg swap h1
    rw [swap_swap] at this
    exact this.trans (show swap (0 : W128) = 0 by decide)
  refine Prod.ext ?_ hlung
  funext j
  exact (at_val v.1 j.2).symm.trans (by rw [hwords _ j.2]; rfl)

theorem pow_fst (c : Cfg) (x : S n) (i : ℕ) : ((T n c ^ i) x).1 = (T1 n c.p ^ i) x.1 := by
  induction i with
  | zero => rfl
  | succ i ih => rw [pow_succ', pow_succ', Module.End.mul_apply, Module.End.mul_apply, ← ih]; rfl

/-- In weight mode 2 the lungs of a dSFMT object determine its state. -/
theorem obs {c : Cfg} (hpos : 1 ≤ c.p.pos1) (hn : c.p.pos1 < n) (hsl : 1 ≤ c.p.sl1) :
    ObsP 128 (n * 104 + 128) (unit n) (T n c) (P n) := by
  intro x hx hout
  rw [M_full (by omega), mem_full] at hx
  refine Prod.ext ?_ hx.2
  refine lungs_determine hpos hn hsl fun i => ?_
  rw [← pow_fst]
  apply bits_inj
  funext j
  by_cases hj : j < 128
  · exact (hout i j hj).trans (by simp [bits])
  · have : ∀ y : W128, bits y j = 0 := fun y => by
      unfold bits; rw [BitVec.getMsbD_of_ge _ _ (by omega)]; rfl
    rw [this, this]

theorem den_full {s : St} (hn : 0 < n) (h2 : s.weightMode = 2) (hl : core n s ∈ Low n) :
    den n s ∈ M (n * 104 + 128) (unit n) := by
  rw [M_full hn, mem_full]
  refine ⟨hl, ?_⟩
  show Wd.of (s.previous &&& keep s.weightMode) = 0
  rw [h2, show keep 2 = 0 from if_pos rfl, show s.previous &&& (0 : W128) = 0 from BitVec.and_zero]
  rfl

/-- **C65 for `dSFMT`.**  `anni` on any object in weight mode 2 (the mode of the constructors) whose state words have no
exponent bits (as after `seed` with prefix 0), for all parameters that the class makes, all start modes and all `mexp` for
which the state has fewer than `2 mexp` bits. -/
theorem anni_correct {mps : Search.MPS} (hm : MinPolySeqSpec mps) {mexp : ℕ} (h1 : 1 ≤ mexp)
    (hbig : n * 104 + 128 < 2 * mexp) {s : St} (hs : Inv n s) (h2 : s.weightMode = 2) (hp : MskOK s.param)
    (hsl : 1 ≤ s.param.sl1) (hl : core n s ∈ Low n) :
    ∃ s' b p, anniD mps (rops n mexp) s = some (s', b) ∧ IsSeqMinpoly p (Search.bitAt (ops n) s 0) ∧
      (b = false → s' = stateAt (ops n) s (2 * (n * 104 + 128)) ∧
        ∀ f, Irreducible f → f.natDegree = mexp → ¬ f ∣ p) ∧
      (b = true → ∃ f, Irreducible f ∧ f.natDegree = mexp ∧ f ∣ p ∧ Inv n s' ∧ cfg s' = cfg s ∧
        core n s' ∈ Low n ∧ IsVecMinpoly (T n (cfg s)) (den n s') f ∧
        ((2 ^ mexp - 1).Prime → ∀ k, den n (stateAt (ops n) s' k) = den n s' ↔ 2 ^ mexp - 1 ∣ k)) := by
  have hn : 0 < n := by have := hs.two; omega
  have hR := redGen (n := n) (cfg s) mexp h2 hs.pos_pos hs.pos hp
  obtain ⟨s', b, p, e1, e2, e3, e4⟩ := anniD_correct hm hR (by decide) h1 hbig
    (obs (c := cfg s) hs.pos_pos hs.pos hsl) (s := s) ⟨hs, rfl⟩ (den_full hn h2 hl)
  refine ⟨s', b, p, e1, e2, e3, fun hb => ?_⟩
  obtain ⟨f, f1, f2, f3, f4⟩ := e4 hb
  have hM := f4.2.1
  rw [show M (rops n mexp).bitSize (unit n) = Full n from M_full hn, mem_full] at hM
  exact ⟨f, f1, f2, f3, f4.1.1, f4.1.2, hM.1, f4.2.2, fun hp => isolated_period hR f1 f2 hp f4⟩

/-- The hypotheses are met by a dSFMT521 object after `seed`. -/
example (v : W128) (a b c d : BitVec 64) :
    let s := seed v (ctorPar 521 ⟨3, 25, 0x000fbfefff77efff, 0x000ffeebfbdfbfdf⟩ a b c d)
    Inv 4 s ∧ s.weightMode = 2 ∧ MskOK s.param ∧ 1 ≤ s.param.sl1 ∧ core 4 s ∈ Low 4 ∧ 4 * 104 + 128 < 2 * 521 := by
  have h := (ctorPar_inv (mexp := 521) (p := ⟨3, 25, 0x000fbfefff77efff, 0x000ffeebfbdfbfdf⟩) (by decide) (by decide)
    (by decide) (by decide) a b c d).1
  exact ⟨(seed_inv h v).1, rfl, show MskOK ⟨3, 25, 0x000fbfefff77efff, 0x000ffeebfbdfbfdf⟩ from ⟨by decide, by decide⟩,
    show 1 ≤ 25 by decide, (seed_low h rfl v).1, by decide⟩

end MTT.DSFMT
