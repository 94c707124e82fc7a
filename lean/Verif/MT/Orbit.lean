import Verif.GF2.MTChar
import Verif.Search.Orbit
import Verif.MT.Props
import Verif.Spec.Stream

/-!
# Recurrences of Mersenne Twister type with a primitive characteristic polynomial (helper lemmas)
-/

namespace MTT

open Polynomial

section Obs

variable {S S' : Type} [AddCommGroup S] [Module (ZMod 2) S] [AddCommGroup S'] [Module (ZMod 2) S']
  [Module.Finite (ZMod 2) S] {T : S →ₗ[ZMod 2] S} {n : ℕ} {p : (ZMod 2)[X]}

/-- Under a maximal-period step every non-zero linear observation has the full period. -/
theorem obs_period (hn : 1 ≤ n) (hdim : Module.finrank (ZMod 2) S = n) (hp : Primitive2 p n)
    (hT : ∀ s, aeval T p s = 0) {O : S →ₗ[ZMod 2] S'} (hO : O ≠ 0) {s : S} (hs : s ≠ 0) (N : ℕ) :
    (∀ k, O ((T ^ (k + N)) s) = O ((T ^ k) s)) ↔ 2 ^ n - 1 ∣ N := by
  constructor
  · intro h
    rw [← Search.period_of_primitive hn hp (hT s) hs]
    by_contra hne
    have hv : (T ^ N) s - s ≠ 0 := sub_ne_zero.2 hne
    apply hO
    ext y
    by_cases hy : y = 0
    · rw [hy, map_zero, map_zero]
    · obtain ⟨k, -, rfl⟩ := Search.orbit_all hn hdim hv
        (fun k => Search.period_of_primitive hn hp (hT _) hv k) hy
      have := h k
      rw [pow_add, Module.End.mul_apply] at this
      rw [map_sub, map_sub, this, sub_self]
      rfl
  · intro h k
    rw [pow_add, Module.End.mul_apply, (Search.period_of_primitive hn hp (hT s) hs N).2 h]

omit [Module.Finite (ZMod 2) S] in
/-- Two times within one period with the same state coincide. -/
theorem orbit_inj (hn : 1 ≤ n) (hp : Primitive2 p n) (hT : ∀ s, aeval T p s = 0) {s : S} (hs : s ≠ 0)
    {i j : ℕ} (hi : i < 2 ^ n - 1) (hj : j < 2 ^ n - 1) (h : (T ^ i) s = (T ^ j) s) : i = j := by
  have key : ∀ {i j : ℕ}, i ≤ j → j < 2 ^ n - 1 → (T ^ i) s = (T ^ j) s → i = j := by
    intro i j hij hj h
    have hne : (T ^ i) s ≠ 0 := by
      intro h0
      have h1 : (T ^ (2 ^ n - 1)) s = s := (Search.period_of_primitive hn hp (hT s) hs _).2 dvd_rfl
      rw [show 2 ^ n - 1 = (2 ^ n - 1 - i) + i by omega, pow_add, Module.End.mul_apply, h0, map_zero] at h1
      exact hs h1.symm
    have h2 : (T ^ (j - i)) ((T ^ i) s) = (T ^ i) s := by
      rw [← Module.End.mul_apply, ← pow_add, Nat.sub_add_cancel hij, h]
    have h3 := (Search.period_of_primitive hn hp (hT _) hne (j - i)).1 h2
    have h4 := Nat.eq_zero_of_dvd_of_lt h3 (by omega)
    omega
  rcases le_total i j with hij | hij
  · exact key hij hj h
  · exact (key hij hi h.symm).symm

/-- Every non-zero state is met within the first period. -/
theorem orbit_surj (hn : 1 ≤ n) (hdim : Module.finrank (ZMod 2) S = n) (hp : Primitive2 p n)
    (hT : ∀ s, aeval T p s = 0) {s y : S} (hs : s ≠ 0) (hy : y ≠ 0) :
    ∃ k, k < 2 ^ n - 1 ∧ (T ^ k) s = y := by
  obtain ⟨k, -, hk⟩ := Search.orbit_all hn hdim hs
    (fun k => Search.period_of_primitive hn hp (hT s) hs k) hy
  have h2 : 2 ≤ 2 ^ n := by
    calc 2 = 2 ^ 1 := rfl
      _ ≤ 2 ^ n := Nat.pow_le_pow_right (by omega) hn
  refine ⟨k % (2 ^ n - 1), Nat.mod_lt _ (by omega), ?_⟩
  have h1 : (T ^ ((2 ^ n - 1) * (k / (2 ^ n - 1)))) s = s :=
    (Search.period_of_primitive hn hp (hT s) hs _).2 (Dvd.intro _ rfl)
  rw [← hk]
  conv_rhs => rw [← Nat.mod_add_div k (2 ^ n - 1), pow_add, Module.End.mul_apply, h1]

/-- Over one period a predicate holds as often as it has non-zero solutions. -/
theorem orbit_count (hn : 1 ≤ n) (hdim : Module.finrank (ZMod 2) S = n) (hp : Primitive2 p n)
    (hT : ∀ s, aeval T p s = 0) {s : S} (hs : s ≠ 0) (Q : S → Prop) :
    Nat.card {k : ℕ // k < 2 ^ n - 1 ∧ Q ((T ^ k) s)} = Nat.card {y : S // y ≠ 0 ∧ Q y} := by
  refine Nat.card_congr (Equiv.ofBijective
    (fun k => ⟨(T ^ k.1) s, ?_, k.2.2⟩) ⟨?_, ?_⟩)
  · intro h0
    have h1 : (T ^ (2 ^ n - 1)) s = s := (Search.period_of_primitive hn hp (hT s) hs _).2 dvd_rfl
    rw [show 2 ^ n - 1 = (2 ^ n - 1 - k.1) + k.1 by have := k.2.1; omega, pow_add,
      Module.End.mul_apply, h0, map_zero] at h1
    exact hs h1.symm
  · rintro ⟨i, hi⟩ ⟨j, hj⟩ h
    exact Subtype.ext (orbit_inj hn hp hT hs hi.1 hj.1 (congrArg Subtype.val h))
  · rintro ⟨y, hy, hQ⟩
    obtain ⟨k, hk, e⟩ := orbit_surj hn hdim hp hT hs hy
    exact ⟨⟨k, hk, by rw [e]; exact hQ⟩, Subtype.ext e⟩

omit [Module.Finite (ZMod 2) S] in
/-- The states have the full period. -/
theorem state_period (hn : 1 ≤ n) (hp : Primitive2 p n) (hT : ∀ s, aeval T p s = 0) {s : S} (hs : s ≠ 0) :
    HasPeriod (fun k => (T ^ k) s) (2 ^ n - 1) := by
  intro K N
  rw [← Search.period_of_primitive hn hp (hT s) hs]
  constructor
  · intro h
    have h1 : (T ^ (2 ^ n - 1)) s = s := (Search.period_of_primitive hn hp (hT s) hs _).2 dvd_rfl
    have h2 : (T ^ ((2 ^ n - 1) * K)) s = s := (Search.period_of_primitive hn hp (hT s) hs _).2 (Dvd.intro _ rfl)
    have h3 := h ((2 ^ n - 1) * K) (Nat.le_mul_of_pos_left _ (one_le_two_pow_sub hn))
    dsimp only at h3
    rwa [Nat.add_comm, pow_add, Module.End.mul_apply, h2] at h3
  · intro h k _
    dsimp only
    rw [pow_add, Module.End.mul_apply, h]

/-- If the period of the states is a prime, every observation that is not constant on the non-zero states has it. -/
theorem fun_period (hn : 1 ≤ n) (hdim : Module.finrank (ZMod 2) S = n) (hp : Primitive2 p n)
    (hT : ∀ s, aeval T p s = 0) (hprime : (2 ^ n - 1).Prime) {α : Type} {F : S → α}
    (hF : ∃ a b, a ≠ 0 ∧ b ≠ 0 ∧ F a ≠ F b) {s : S} (hs : s ≠ 0) :
    HasPeriod (fun k => F ((T ^ k) s)) (2 ^ n - 1) := by
  have hper := state_period hn hp hT hs
  intro K N
  constructor
  · intro h
    dsimp only at h
    by_contra hN
    have hco : Nat.Coprime N (2 ^ n - 1) := ((Nat.Prime.coprime_iff_not_dvd hprime).2 hN).symm
    have hq : ∀ j k, F ((T ^ (k + (2 ^ n - 1) * j)) s) = F ((T ^ k) s) := fun j k =>
      congrArg F ((hper 0 _).2 (Dvd.intro _ rfl) k (Nat.zero_le _))
    have h1 : ∀ k, F ((T ^ (k + N)) s) = F ((T ^ k) s) := fun k => by
      rw [← hq K (k + N), ← hq K k, Nat.add_right_comm]
      exact h _ (le_add_left (Nat.le_mul_of_pos_left _ hprime.pos))
    have h2 : ∀ j k, F ((T ^ (k + N * j)) s) = F ((T ^ k) s) := by
      intro j
      induction j with
      | zero => intro k; rfl
      | succ j ih => intro k; rw [Nat.mul_succ, ← Nat.add_assoc, h1, ih]
    obtain ⟨a, ha⟩ := Nat.exists_mul_mod_eq_one_of_coprime hco hprime.one_lt
    have h3 : ∀ k, F ((T ^ (k + 1)) s) = F ((T ^ k) s) := fun k => by
      rw [← hq (N * a / (2 ^ n - 1)) (k + 1), ← h2 a k]
      congr 3
      have := Nat.mod_add_div (N * a) (2 ^ n - 1)
      omega
    have h4 : ∀ k, F ((T ^ k) s) = F s := by
      intro k
      induction k with
      | zero => rfl
      | succ k ih => rw [h3, ih]
    obtain ⟨a, b, ha, hb, hab⟩ := hF
    obtain ⟨i, -, rfl⟩ := orbit_surj hn hdim hp hT hs ha
    obtain ⟨j, -, rfl⟩ := orbit_surj hn hdim hp hT hs hb
    exact hab ((h4 i).trans (h4 j).symm)
  · intro h k hk
    exact congrArg F ((hper K N).2 h k hk)

/-- A non-zero linear observation has the full period. -/
theorem lin_period (hn : 1 ≤ n) (hdim : Module.finrank (ZMod 2) S = n) (hp : Primitive2 p n)
    (hT : ∀ s, aeval T p s = 0) {O : S →ₗ[ZMod 2] S'} (hO : O ≠ 0) {s : S} (hs : s ≠ 0) :
    HasPeriod (fun k => O ((T ^ k) s)) (2 ^ n - 1) := by
  intro K N
  have h0 : (T ^ K) s ≠ 0 := by
    intro h0
    have h2 : (T ^ ((2 ^ n - 1) * K)) s = s := (Search.period_of_primitive hn hp (hT s) hs _).2 (Dvd.intro _ rfl)
    have : K ≤ (2 ^ n - 1) * K := Nat.le_mul_of_pos_left _ (one_le_two_pow_sub hn)
    rw [← Nat.sub_add_cancel this, pow_add, Module.End.mul_apply, h0, map_zero] at h2
    exact hs h2.symm
  rw [← obs_period hn hdim hp hT hO h0 N]
  have e : ∀ k, (T ^ k) ((T ^ K) s) = (T ^ (K + k)) s := fun k => by
    rw [Nat.add_comm, pow_add, Module.End.mul_apply]
  constructor
  · intro h k
    rw [e, e, ← Nat.add_assoc]
    exact h (K + k) (by omega)
  · intro h k hk
    obtain ⟨j, rfl⟩ := Nat.exists_eq_add_of_le hk
    have := h j
    rwa [e, e, ← Nat.add_assoc] at this

end Obs

namespace MTRec

variable {w : ℕ} {P : MTPar w} {n : ℕ} {x : ℕ → BitVec w}

theorem seqState_ne_zero (hP : P.OK) (hm2 : 2 ≤ P.m) (ha : P.a.getLsbD (w - 1) = true) (hx : IsSeq P x)
    (h : seqState P x 0 ≠ 0) (t : ℕ) : seqState P x t ≠ 0 := by
  intro hz
  have := T_pow_seqState hP hx 0 t
  rw [Nat.zero_add, hz] at this
  have hinj : Function.Injective (T P ^ t) := by
    rw [Module.End.coe_pow]; exact (T_injective hP hm2 ha).iterate t
  exact h (hinj (this.trans (map_zero _).symm))

/-- The newest word can be anything. -/
theorem newest_surjective (hP : P.OK) (hm2 : 2 ≤ P.m) : Function.Surjective (newest P) := by
  intro v
  have hmn := hP.hmn
  refine ⟨(0, fun j => if (j : ℕ) = P.m - 1 then v else 0), ?_⟩
  show Wd.of (newWord _) = v
  unfold newWord
  have h1 : word (P := P) (0, fun j => if (j : ℕ) = P.m - 1 then v else 0) P.m = v.val := by
    unfold word
    rw [dif_pos (by omega)]
    simp only [if_true]
  have h2 : word (P := P) (0, fun j => if (j : ℕ) = P.m - 1 then v else 0) 1 = 0 := by
    unfold word
    rw [dif_pos (by omega)]
    simp only
    rw [if_neg (by omega)]
    rfl
  have h3 : lift P.r ((0 : Wd (w - P.r))).val = 0 := by
    apply BitVec.eq_of_getLsbD_eq
    intro i _
    rw [lift_bit, show (0 : Wd (w - P.r)).val = 0 from rfl]
    simp
  rw [h1, h2, h3]
  apply Wd.ext
  show v.val ^^^ twist P.a (0 ^^^ (0 &&& ~~~ upper w P.r)) = v.val
  rw [show (0 : BitVec w) ^^^ (0 &&& ~~~ upper w P.r) = 0 by simp, twist_zero]
  exact BitVec.xor_zero

theorem newest_seqState (hP : P.OK) (hx : IsSeq P x) (t : ℕ) :
    newest P (seqState P x t) = Wd.of (x (t + P.n)) := by
  show Wd.of (newWord _) = _
  rw [newWord_seqState hP, hx t]

/-- A linear function of the words, not zero, has the period of the states, from any time on. -/
theorem seq_period (hP : P.OK) (hr1 : 1 ≤ P.r) (hm2 : 2 ≤ P.m) (ha : P.a.getLsbD (w - 1) = true) (hn : 1 ≤ n)
    (hdim : Module.finrank (ZMod 2) (State P) = n) (hp : Primitive2 (charPoly P) n) (hx : IsSeq P x)
    (h0 : seqState P x 0 ≠ 0) {S' : Type} [AddCommGroup S'] [Module (ZMod 2) S'] {O : Wd w →ₗ[ZMod 2] S'}
    (hO : O ≠ 0) (K N : ℕ) :
    (∀ k, K ≤ k → O (Wd.of (x (P.n + (k + N)))) = O (Wd.of (x (P.n + k)))) ↔ 2 ^ n - 1 ∣ N := by
  have hO' : O ∘ₗ newest P ≠ 0 := by
    intro h
    apply hO
    ext v
    obtain ⟨s, rfl⟩ := newest_surjective hP hm2 v
    exact LinearMap.congr_fun h s
  rw [← obs_period hn hdim hp (aeval_charPoly hP hr1 hm2 ha) hO' (seqState_ne_zero hP hm2 ha hx h0 K) N]
  have e : ∀ k, (O ∘ₗ newest P) ((T P ^ k) (seqState P x K)) = O (Wd.of (x (P.n + (K + k)))) := fun k => by
    rw [T_pow_seqState hP hx, LinearMap.comp_apply, newest_seqState hP hx, Nat.add_comm (K + k)]
  constructor
  · intro h k
    rw [e, e]
    have := h (K + k) (by omega)
    rwa [Nat.add_assoc] at this
  · intro h k hk
    obtain ⟨j, rfl⟩ := Nat.exists_eq_add_of_le hk
    have := h j
    rw [e, e] at this
    rwa [Nat.add_assoc]

/-- Number of occurrences of a tuple of `n-1` words over one period. -/
theorem seq_count (hP : P.OK) (hr1 : 1 ≤ P.r) (hm2 : 2 ≤ P.m) (ha : P.a.getLsbD (w - 1) = true) (hn : 1 ≤ n)
    (hdim : Module.finrank (ZMod 2) (State P) = n) (hp : Primitive2 (charPoly P) n) (hx : IsSeq P x)
    (h0 : seqState P x 0 ≠ 0) (t : ℕ) (v : ℕ → BitVec w) :
    ((∃ j, j < P.n - 1 ∧ v j ≠ 0) →
      Nat.card {k : ℕ // k < 2 ^ n - 1 ∧ ∀ j, j < P.n - 1 → x (t + 1 + (k + j)) = v j} = 2 ^ (w - P.r)) ∧
    ((∀ j, j < P.n - 1 → v j = 0) →
      Nat.card {k : ℕ // k < 2 ^ n - 1 ∧ ∀ j, j < P.n - 1 → x (t + 1 + (k + j)) = v j} =
        2 ^ (w - P.r) - 1) := by
  have hne := seqState_ne_zero hP hm2 ha hx h0 t
  have e : Nat.card {k : ℕ // k < 2 ^ n - 1 ∧ ∀ j, j < P.n - 1 → x (t + 1 + (k + j)) = v j} =
      Nat.card {y : State P // y ≠ 0 ∧ ∀ j : Fin (P.n - 1), y.2 j = Wd.of (v j)} := by
    rw [← orbit_count hn hdim hp (aeval_charPoly hP hr1 hm2 ha) hne]
    refine Nat.card_congr (Equiv.subtypeEquivRight fun k => and_congr_right fun _ => ?_)
    rw [T_pow_seqState hP hx]
    constructor
    · intro h j
      show Wd.of (x (t + k + 1 + j)) = _
      rw [← h j j.2]
      congr 2; omega
    · intro h j hj
      have := congrArg Wd.val (h ⟨j, hj⟩)
      have h1 : x (t + k + 1 + j) = v j := this
      rw [← h1]
      congr 1; omega
  rw [e]
  constructor
  · rintro ⟨j, hj, hvj⟩
    rw [← Wd.card (w := w - P.r)]
    refine Nat.card_congr ⟨fun y => y.1.1, fun h => ⟨(h, fun j => Wd.of (v j)), ?_, fun _ => rfl⟩, ?_, ?_⟩
    · intro hz
      exact hvj (congrArg (fun q : State P => (q.2 ⟨j, hj⟩).val) hz)
    · rintro ⟨⟨a, b⟩, h1, h2⟩
      apply Subtype.ext
      exact Prod.ext rfl (funext fun j => (h2 j).symm)
    · intro h; rfl
  · intro hv
    have h1 : Nat.card {y : State P // y ≠ 0 ∧ ∀ j : Fin (P.n - 1), y.2 j = Wd.of (v j)} =
        Nat.card {h : Wd (w - P.r) // h ≠ 0} := by
      have hz : ∀ j : Fin (P.n - 1), Wd.of (v j) = 0 := fun j => by rw [hv j j.2]; rfl
      refine Nat.card_congr ⟨fun y => ⟨y.1.1, fun h => y.2.1 (Prod.ext h (funext fun j => ?_))⟩,
        fun h => ⟨(h.1, 0), fun h' => h.2 (congrArg Prod.fst h'), fun j => (hz j).symm⟩, ?_, ?_⟩
      · rw [y.2.2 j, hz j]; rfl
      · rintro ⟨⟨a, b⟩, h1, h2⟩
        apply Subtype.ext
        exact Prod.ext rfl (funext fun j => ((h2 j).trans (hz j)).symm)
      · intro h; rfl
    rw [h1, ← Wd.card (w := w - P.r)]
    have : Fintype (Wd (w - P.r)) := Fintype.ofFinite _
    classical
    rw [Nat.card_eq_fintype_card, Nat.card_eq_fintype_card, Fintype.card_subtype_compl,
      Fintype.card_subtype_eq]

end MTRec

end MTT
