import Verif.Search.Model
import Verif.Spec.LinSeq
import Verif.PIS.Uniform
import Verif.Util.Props
import Verif.Period.Factor

/-!
# Helper lemmas about `minpoly` and periods of linear maps
-/

namespace MTT.Search

open Polynomial PIS

variable {σ S : Type} {w : ℕ} [AddCommGroup S] [Module (ZMod 2) S]
  {G : GenOps σ w} {Inv : σ → Prop} {den : σ → S}
  {T : S →ₗ[ZMod 2] S} {O : S →ₗ[ZMod 2] V}

/-- The sequence of the bits number `pos` (0 is the least significant) of the outputs of a generator
started in state `s`. -/
def bitAt (G : GenOps σ w) (s : σ) (pos : ℕ) : BitSeq := fun i =>
  if (outAt G s i).getLsbD pos then 1 else 0

theorem stateAt_succ' (G : GenOps σ w) (s : σ) (n : ℕ) :
    stateAt G s (n + 1) = stateAt G (G.generate s).1 n := by
  induction n with
  | zero => rfl
  | succ n ih =>
    show (G.generate (stateAt G s (n + 1))).1 = (G.generate (stateAt G (G.generate s).1 n)).1
    rw [ih]

theorem stateAt_add (G : GenOps σ w) (s : σ) (m n : ℕ) :
    stateAt G s (m + n) = stateAt G (stateAt G s m) n := by
  induction n with
  | zero => rfl
  | succ n ih =>
    show (G.generate (stateAt G s (m + n))).1 = (G.generate (stateAt G (stateAt G s m) n)).1
    rw [ih]

theorem bitAt_shift (G : GenOps σ w) (s : σ) (pos m i : ℕ) :
    bitAt G (stateAt G s m) pos i = bitAt G s pos (m + i) := by
  unfold bitAt outAt
  rw [stateAt_add]

theorem collect_spec (G : GenOps σ w) {pos : ℕ} (hp : pos < w) (n : ℕ) (s : σ) :
    collect G pos n s = some (stateAt G s n, (List.range n).map (bitAt G s pos)) := by
  induction n generalizing s with
  | zero => rfl
  | succ n ih =>
    unfold collect
    dsimp only
    rw [((Util.bitOfPos_correct (G.generate s).2 0 pos).1 pos rfl hp).2]
    simp only [ih, Option.map_some, Option.some.injEq, Prod.mk.injEq, List.range_succ_eq_map,
      List.map_cons, List.map_map]
    refine ⟨(stateAt_succ' G s n).symm, ?_⟩
    congr 1
    · show _ = (if ((G.generate s).2).getLsbD pos then (1 : ZMod 2) else 0)
      cases ((G.generate s).2).getLsbD pos <;> simp
    · apply List.map_congr_left
      intro i _
      have := bitAt_shift G s pos 1 i
      show bitAt G (stateAt G s 1) pos i = bitAt G s pos (i + 1)
      rw [this]; congr 1; omega

/-- Coordinate of the output that belongs to bit `pos`. -/
def coord (w pos : ℕ) (O : S →ₗ[ZMod 2] V) : S →ₗ[ZMod 2] ZMod 2 :=
  (LinearMap.proj (w - 1 - pos)).comp O

theorem bitAt_eq (h : LinGen G Inv den T O) {s : σ} (hs : Inv s) {pos : ℕ} (hp : pos < w) :
    bitAt G s pos = outSeq T (coord w pos O) (den s) := by
  funext i
  show _ = O ((T ^ i) (den s)) (w - 1 - pos)
  rw [← outAt_spec h hs]
  unfold bitAt bits
  rw [BitVec.getMsbD_eq_getLsbD]
  have h1 : w - 1 - pos < w := by omega
  have h2 : w - 1 - (w - 1 - pos) = pos := by omega
  simp [h1, h2]

/-- The minimal polynomial of a vector under a linear map. -/
def IsVecMinpoly (T : S →ₗ[ZMod 2] S) (s : S) (p : (ZMod 2)[X]) : Prop :=
  p ≠ 0 ∧ ∀ q, aeval T q s = 0 ↔ p ∣ q

theorem exists_vecMinpoly {s : S} {q : (ZMod 2)[X]} (hq : q ≠ 0) (h : aeval T q s = 0) :
    ∃ p, IsVecMinpoly T s p := by
  classical
  have hex : ∃ n, ∃ p : (ZMod 2)[X], p ≠ 0 ∧ aeval T p s = 0 ∧ p.natDegree = n := ⟨_, q, hq, h, rfl⟩
  obtain ⟨p, hp0, hpa, hpn⟩ := Nat.find_spec hex
  refine ⟨p, hp0, fun r => ⟨fun hr => ?_, ?_⟩⟩
  · have hg : aeval T (EuclideanDomain.gcd p r) s = 0 := by
      rw [EuclideanDomain.gcd_eq_gcd_ab, map_add, LinearMap.add_apply, mul_comm p, mul_comm r, map_mul,
        map_mul, Module.End.mul_apply, Module.End.mul_apply, hpa, hr, map_zero, map_zero, add_zero]
    have hg0 : EuclideanDomain.gcd p r ≠ 0 := by
      rw [Ne, EuclideanDomain.gcd_eq_zero_iff]; tauto
    have hle : p.natDegree ≤ (EuclideanDomain.gcd p r).natDegree := by
      rw [hpn]; exact Nat.find_min' hex ⟨_, hg0, hg, rfl⟩
    obtain ⟨c, hc⟩ := EuclideanDomain.gcd_dvd_left p r
    have hc0 : c ≠ 0 := fun h0 => hp0 (by rw [hc, h0, mul_zero])
    have hdeg := congrArg natDegree hc
    rw [natDegree_mul hg0 hc0] at hdeg
    have hc1 : c = 1 := (monic_of_ne hc0).natDegree_eq_zero.1 (by omega)
    rw [hc, hc1, mul_one]
    exact EuclideanDomain.gcd_dvd_right p r
  · rintro ⟨c, rfl⟩
    rw [mul_comm, map_mul, Module.End.mul_apply, hpa, map_zero]

theorem aeval_X_pow_sub_one {s : S} (k : ℕ) : aeval T (X ^ k - 1 : (ZMod 2)[X]) s = 0 ↔ (T ^ k) s = s := by
  rw [map_sub, map_pow, aeval_X, map_one, LinearMap.sub_apply, Module.End.one_apply, sub_eq_zero]

/-- If a primitive polynomial annihilates a non-zero vector, the vector has the full period. -/
theorem period_of_primitive {s : S} {p : (ZMod 2)[X]} {n : ℕ} (hn : 1 ≤ n) (hp : Primitive2 p n)
    (h : aeval T p s = 0) (hs : s ≠ 0) (k : ℕ) : (T ^ k) s = s ↔ 2 ^ n - 1 ∣ k := by
  have hirr := Primitive2.irreducible hn hp
  obtain ⟨μ, h0, hμ⟩ := exists_vecMinpoly hirr.ne_zero h
  have hμp : μ = p := by
    have hd := (hμ p).1 h
    rcases hirr.dvd_iff.1 hd with h1 | h1
    · exfalso
      rw [isUnit_iff_one] at h1
      have := (hμ 1).2 (by rw [h1])
      rw [map_one, Module.End.one_apply] at this
      exact hs this
    · exact (eq_of_associated h1).symm
  rw [← aeval_X_pow_sub_one, hμ, hμp]
  exact hp.2 k

/-- If a vector has period exactly `2^n-1` in a space of dimension at most `n`, its minimal polynomial is
primitive of degree `n`. -/
theorem primitive_of_period {s : S} {μ : (ZMod 2)[X]} (hμ : IsVecMinpoly T s μ) {n : ℕ} (hn : 1 ≤ n)
    (hd : μ.natDegree ≤ n) (h0 : s ≠ 0) (hper : ∀ k, (T ^ k) s = s ↔ 2 ^ n - 1 ∣ k) : Primitive2 μ n := by
  have hk : ∀ k, μ ∣ X ^ k - 1 ↔ 2 ^ n - 1 ∣ k := fun k => by
    rw [← hμ.2, aeval_X_pow_sub_one, hper]
  refine ⟨le_antisymm hd ?_, hk⟩
  -- the order of the root is 2^n-1, so there are that many residues
  have hnt : μ.natDegree ≠ 0 := fun h => by
    have h1 : μ = 1 := (monic_of_ne hμ.1).natDegree_eq_zero.1 h
    have := (hμ.2 1).2 (by rw [h1])
    rw [map_one, Module.End.one_apply] at this
    exact h0 this
  have hfin := adjoin_finite hμ.1
  have hcard := adjoin_card hμ.1
  have hord : orderOf (AdjoinRoot.root μ) = 2 ^ n - 1 := by
    apply Nat.dvd_antisymm
    · rw [orderOf_dvd_iff_pow_eq_one, root_pow_eq_one, hk]
    · rw [← hk, ← root_pow_eq_one, pow_orderOf_eq_one]
  have hnt' : Nontrivial (AdjoinRoot μ) := by
    apply AdjoinRoot.nontrivial
    rw [degree_eq_natDegree hμ.1]
    exact_mod_cast hnt
  have hpos := one_le_two_pow_sub hn
  have hunit : IsUnit (AdjoinRoot.root μ) := IsUnit.of_pow_eq_one (pow_orderOf_eq_one _) (by omega)
  let φ : Fin (2 ^ n - 1) → {y : AdjoinRoot μ // y ≠ 0} := fun i =>
    ⟨AdjoinRoot.root μ ^ (i : ℕ), (hunit.pow _).ne_zero⟩
  have hφ : Function.Injective φ := by
    intro i j hij
    have h1 : AdjoinRoot.root μ ^ (i : ℕ) = AdjoinRoot.root μ ^ (j : ℕ) := congrArg Subtype.val hij
    apply Fin.ext
    exact pow_injOn_Iio_orderOf (by rw [hord]; exact i.2) (by rw [hord]; exact j.2) h1
  have hc : Nat.card {y : AdjoinRoot μ // y ≠ 0} = 2 ^ μ.natDegree - 1 := by
    classical
    have := Fintype.ofFinite (AdjoinRoot μ)
    rw [Nat.card_eq_fintype_card, Fintype.card_subtype_compl, Fintype.card_subtype_eq,
      ← Nat.card_eq_fintype_card, hcard]
  have hle := Nat.card_le_card_of_injective φ hφ
  rw [Nat.card_fin, hc] at hle
  by_contra hcon
  have : 2 ^ μ.natDegree < 2 ^ n := Nat.pow_lt_pow_right (by omega) (by omega)
  have : 0 < 2 ^ μ.natDegree := by positivity
  omega

end MTT.Search
