import Verif.Parity.Loop
import Verif.Util.Props
import Verif.Samples.W128Props
import Verif.Period.Props
import Mathlib.LinearAlgebra.FiniteDimensional.Basic

/-!
# C48, C49: the parity check vector
-/

namespace MTT.Parity

open Polynomial PIS

variable {σ S : Type} {w : ℕ} [AddCommGroup S] [Module (ZMod 2) S]

/-- The contract of NTL's `kernel(X, A)`: the rows of `X` are a basis of the left kernel of `A`. -/
structure KernelSpec (kernel : KernelFn) : Prop where
  indep : ∀ n m A, LinearIndependent (ZMod 2) (kernel n m A).get
  ker : ∀ n m A (x : Fin n → ZMod 2),
    x ∈ Submodule.span (ZMod 2) (Set.range (kernel n m A).get) ↔ ∀ j, ∑ i, x i * A i j = 0

/-- Such a function exists. -/
theorem exists_kernel : ∃ kernel, KernelSpec kernel := by
  classical
  let K : (n m : ℕ) → (Fin n → Fin m → ZMod 2) → Submodule (ZMod 2) (Fin n → ZMod 2) := fun n m A =>
    { carrier := {x | ∀ j, ∑ i, x i * A i j = 0}
      add_mem' := fun {a b} ha hb j => by
        simp only [Pi.add_apply, add_mul, Finset.sum_add_distrib, ha j, hb j, add_zero]
      zero_mem' := fun j => by simp
      smul_mem' := fun c x hx j => by
        simp only [Pi.smul_apply, smul_eq_mul, mul_assoc, ← Finset.mul_sum, hx j, mul_zero] }
  have key : ∀ n m A, ∃ l : List (Fin n → ZMod 2), LinearIndependent (ZMod 2) l.get ∧
      Submodule.span (ZMod 2) (Set.range l.get) = K n m A := by
    intro n m A
    let b := Module.finBasis (ZMod 2) (K n m A)
    have e : (List.ofFn fun i => (b i : Fin n → ZMod 2)).get =
        (fun i => (b i : Fin n → ZMod 2)) ∘ Fin.cast (by simp) := by
      funext i
      rw [List.get_ofFn]
      rfl
    have hlen : (List.ofFn fun i => (b i : Fin n → ZMod 2)).length = Module.finrank (ZMod 2) (K n m A) := by simp
    have hs : Function.Surjective (Fin.cast hlen) := fun i => ⟨Fin.cast hlen.symm i, by simp⟩
    have hb : LinearIndependent (ZMod 2) fun i => (b i : Fin n → ZMod 2) :=
      b.linearIndependent.map' (K n m A).subtype (Submodule.ker_subtype _)
    refine ⟨List.ofFn fun i => (b i : Fin n → ZMod 2), ?_, ?_⟩
    · rw [e]
      exact hb.comp _ (Fin.cast_injective _)
    · rw [e, hs.range_comp]
      have : Set.range (fun i => (b i : Fin n → ZMod 2)) = (K n m A).subtype '' Set.range b := by
        rw [← Set.range_comp]; rfl
      rw [this, Submodule.span_image, b.span_eq, Submodule.map_top, Submodule.range_subtype]
  choose k hk1 hk2 using key
  exact ⟨k, ⟨hk1, fun n m A x => by rw [hk2]; rfl⟩⟩

/-! ## Word operations -/

theorem wordsOK_of {W : WordOps w} (h1 : IsCalc1pos W.calc1pos)
    (h2 : ∀ k : ℕ, k < w → ∃ r, W.setPos k = some r ∧ ∀ i, i < w → r.getLsbD i = decide (i = k)) : WordsOK W := by
  refine ⟨h1, fun k hk => ?_⟩
  obtain ⟨r, hr, hb⟩ := h2 k hk
  rw [hr]
  refine congrArg some (BitVec.eq_of_getLsbD_eq fun i hi => ?_)
  rw [hb i hi, BitVec.getLsbD_twoPow]
  by_cases h : i = k
  · subst h; simp [hi]
  · have : ¬ k = i := by omega
    simp [h, this]

theorem wordsOK32 : WordsOK words32 := by
  refine wordsOK_of Util.isCalc1pos_32 fun k hk => ?_
  obtain ⟨⟨r, hr, hb⟩, _⟩ := (Util.bitOfPos_correct (0 : BitVec 32) 1 k).1 k rfl hk
  refine ⟨r, hr, fun i hi => ?_⟩
  rw [hb i hi]
  by_cases h : i = k <;> simp [h]

theorem wordsOK64 : WordsOK words64 := by
  refine wordsOK_of Util.isCalc1pos_64 fun k hk => ?_
  obtain ⟨⟨r, hr, hb⟩, _⟩ := (Util.bitOfPos_correct (0 : BitVec 64) 1 k).1 k rfl hk
  refine ⟨r, hr, fun i hi => ?_⟩
  rw [hb i hi]
  by_cases h : i = k <;> simp [h]

theorem wordsOK128 : WordsOK words128 := by
  refine wordsOK_of (show IsCalc1pos W128.calc1posWrap from W128.isCalc1pos_128) fun k hk => ?_
  obtain ⟨r, hr, hb⟩ := (W128.setBitOfPos_correct (0 : BitVec 128) k 1).1 k rfl hk
  refine ⟨r, by unfold words128; exact hr, fun i hi => ?_⟩
  rw [hb i hi, show (0 : BitVec 128).getLsbD i = false from BitVec.getLsbD_zero, W128.one_bit (by omega)]
  by_cases h : i = k
  · rw [if_pos h]; simp [h]
  · rw [if_neg h]; simp [h]

/-- The last computation of `mask` in `search_parity_check_vector` and in `fromGF2Vec` shifts by -1, which is
undefined. -/
theorem setPos_undefined : words32.setPos (-1) = none ∧ words64.setPos (-1) = none ∧ words128.setPos (-1) = none := by
  have h32 := ((Util.bitOfPos_correct (0 : BitVec 32) 1 (-1)).2 (by omega)).1
  have h64 := ((Util.bitOfPos_correct (0 : BitVec 64) 1 (-1)).2 (by omega)).1
  have h128 := (W128.setBitOfPos_correct (0 : BitVec 128) (-1) 1).2 (by omega)
  unfold words32 words64 words128
  exact ⟨h32, h64, h128⟩

theorem fromLoop_spec {W : WordOps w} (hW : WordsOK W) (junk : BitVec w) (l : List Bool) :
    ∀ (n : ℕ) (mask result : BitVec w), l.length = n → n ≤ w →
      (1 ≤ n → mask = BitVec.twoPow w (n - 1)) →
      ∀ i < w, (fromLoop W junk l ((n : Int) - 1) mask result).getLsbD i
        = (result.getLsbD i || (decide (i < n) && l.getD (n - 1 - i) false)) := by
  induction l with
  | nil =>
    intro n mask result hl _ _ i hi
    simp at hl; subst hl
    simp [fromLoop]
  | cons b l ih =>
    intro n mask result hl hn hmask i hi
    obtain ⟨m, rfl⟩ : ∃ m, n = m + 1 := ⟨n - 1, by simp at hl; omega⟩
    have hlen : l.length = m := by simpa using hl
    rw [fromLoop]
    have hpos : ((m + 1 : ℕ) : Int) - 1 - 1 = (m : Int) - 1 := by push_cast; ring
    simp only [hpos]
    rw [ih m _ _ hlen (by omega) (by
      intro hm
      rw [show (m : Int) - 1 = ((m - 1 : ℕ) : Int) by omega, hW.setPos (m - 1) (by omega)]
      rfl) i hi]
    have hres : (if b = true then result ||| mask else result).getLsbD i
        = (result.getLsbD i || (b && decide (i = m))) := by
      rw [hmask (by omega)]
      cases b
      · simp
      · simp only [if_true, BitVec.getLsbD_or, BitVec.getLsbD_twoPow, Nat.add_sub_cancel]
        by_cases h : i = m
        · subst h; simp [hi]
        · have : ¬ m = i := by omega
          simp [h, this]
    rw [hres]
    rcases lt_trichotomy i m with h | h | h
    · have e1 : m + 1 - 1 - i = (m - 1 - i) + 1 := by omega
      have e2 : i < m + 1 := by omega
      have e3 : ¬ i = m := by omega
      rw [e1, List.getD_cons_succ]
      simp [h, e2, e3]
    · subst h
      simp
    · have e1 : ¬ i < m := by omega
      have e2 : ¬ i < m + 1 := by omega
      have e3 : ¬ i = m := by omega
      simp [e1, e2, e3]

theorem fromVec_bits {W : WordOps w} (hW : WordsOK W) (junk : BitVec w) (x : Fin w → ZMod 2) (i : Fin w) :
    bits (fromVec W junk (List.ofFn fun i => decide (x i ≠ 0))) i = x i := by
  have hw : 1 ≤ w := by have := i.2; omega
  unfold bits fromVec
  rw [BitVec.getMsbD_eq_getLsbD, fromLoop_spec hW junk _ w _ _ (by simp) le_rfl (by
    intro _
    rw [show (w : Int) - 1 = ((w - 1 : ℕ) : Int) by omega, hW.setPos (w - 1) (by omega)]
    rfl) _ (by omega)]
  have e1 : w - 1 - (w - 1 - (i : ℕ)) = i := by have := i.2; omega
  have e2 : w - 1 - (i : ℕ) < w := by omega
  have e3 : (List.ofFn fun i => decide (x i ≠ 0)).getD (i : ℕ) false = decide (x i ≠ 0) := by
    rw [List.getD_eq_getElem _ _ (by simp)]; simp
  rw [e1, e3]
  have e4 : (0 : BitVec w).getLsbD (w - 1 - (i : ℕ)) = false := BitVec.getLsbD_zero
  rw [e4, decide_eq_true i.2, decide_eq_true e2]
  simp only [Bool.true_and, Bool.false_or, decide_eq_true_eq]
  rcases two_cases (x i) with h | h
  · rw [h]; simp
  · rw [h]; simp

/-- The inner product in terms of the bits from the most significant one. -/
theorem dot_bits (x y : BitVec w) : dot x y = ∑ i : Fin w, bits y i * bits x i := by
  unfold dot
  rw [← Finset.sum_range_reflect, Finset.sum_range]
  refine Finset.sum_congr rfl fun i _ => ?_
  unfold bits
  rw [BitVec.getMsbD_eq_getLsbD, BitVec.getMsbD_eq_getLsbD, decide_eq_true i.2]
  cases x.getLsbD (w - 1 - i) <;> cases y.getLsbD (w - 1 - i) <;> decide

theorem mask_bit (x : BitVec w) (i : Fin w) :
    (if BitVec.twoPow w (w - 1 - i) &&& x ≠ 0 then 1 else 0) = bits x i := by
  have key : BitVec.twoPow w (w - 1 - i) &&& x ≠ 0 ↔ x.getMsbD i = true := by
    rw [BitVec.getMsbD_eq_getLsbD, decide_eq_true i.2, Bool.true_and]
    constructor
    · intro h
      by_contra hx
      apply h
      apply BitVec.eq_of_getLsbD_eq
      intro j hj
      rw [BitVec.getLsbD_and, BitVec.getLsbD_twoPow]
      show _ = (0#w).getLsbD j
      rw [BitVec.getLsbD_zero]
      by_cases hj' : w - 1 - (i : ℕ) = j
      · rw [← hj']; simp at hx; simp [hx]
      · simp [hj']
    · intro h h0
      have := congrArg (fun y => y.getLsbD (w - 1 - i)) h0
      rw [BitVec.getLsbD_and, BitVec.getLsbD_twoPow, h] at this
      have hw : w - 1 - (i : ℕ) < w := by have := i.2; omega
      rw [show (0 : BitVec w).getLsbD (w - 1 - (i : ℕ)) = false from BitVec.getLsbD_zero] at this
      simp [hw] at this
  unfold bits
  by_cases h : x.getMsbD i = true
  · rw [if_pos (key.2 h), if_pos h]
  · rw [if_neg (fun h' => h (key.1 h')), if_neg h]

variable {R : ROps σ w} {W : WordOps w} {Inv : σ → Prop} {den : σ → S} {T : S →ₗ[ZMod 2] S} {O : S →ₗ[ZMod 2] V}
  {e : ℕ → S} {P : S →ₗ[ZMod 2] V}

theorem columns_length (bases : ℕ → IS σ w) : (columns bases).length = countBases bases := by
  unfold columns countBases
  rw [List.filter_map, List.length_map]
  rfl

theorem mem_columns {bases : ℕ → IS σ w} {i : ℕ} (hi : i < w) (h : (bases i).next ≠ 0) :
    (bases i).next ∈ columns bases := by
  unfold columns
  rw [List.mem_filter]
  exact ⟨List.mem_map.2 ⟨i, List.mem_range.2 hi, rfl⟩, by simpa using h⟩

/-- The vector found is orthogonal to the words of the bases. -/
theorem checkVector_spec (hW : WordsOK W) {kernel : KernelFn} (hK : KernelSpec kernel) {junk : BitVec w}
    {bases : ℕ → IS σ w} {size : ℤ} {parity : BitVec w}
    (h' : searchParityCheckVector W kernel junk bases size = .ok parity) :
    parity ≠ 0 ∧ ∀ u ∈ WS bases, ∑ i : Fin w, bits parity i * u i = 0 := by
  unfold searchParityCheckVector at h'
  split at h'
  · exact absurd h' (by simp)
  · next hsz =>
    split at h'
    · exact absurd h' (by simp)
    · next x rest hx =>
      obtain rfl := Except.ok.inj h'
      have hb := fromVec_bits hW junk x
      have hmem : x ∈ Set.range (kernel w size.toNat (matrix W junk size.toNat (columns bases))).get := by
        rw [hx]; exact ⟨⟨0, by simp⟩, rfl⟩
      have hker := (hK.ker _ _ _ x).1 (Submodule.subset_span hmem)
      have hx0 : x ≠ 0 := by
        have hli := hK.indep w size.toNat (matrix W junk size.toNat (columns bases))
        rw [hx] at hli
        exact hli.ne_zero (⟨0, by simp⟩ : Fin (x :: rest).length)
      refine ⟨fun h0 => hx0 ?_, fun u hu => ?_⟩
      · funext i
        rw [← hb i, h0, bits_zero]; rfl
      · refine Submodule.span_induction (p := fun u _ => ∑ i : Fin w,
          bits (fromVec W junk (List.ofFn fun i => decide (x i ≠ 0))) i * u i = 0) ?_ ?_ ?_ ?_ hu
        · rintro _ ⟨j, rfl⟩
          simp only [hb]
          by_cases hj : (bases j).next = 0
          · rw [show (bases (j : ℕ)).next = 0 from hj, bits_zero]
            simp
          · obtain ⟨c, hc, hcj⟩ := List.mem_iff_getElem.1 (mem_columns j.2 hj)
            have h1 := hker ⟨c, by omega⟩
            rw [← h1]
            refine Finset.sum_congr rfl fun i _ => ?_
            congr 1
            unfold matrix
            simp only
            rw [List.getElem?_eq_getElem hc]
            dsimp only
            have e1 : (w : ℤ) - 1 - ((i : ℕ) : ℤ) = ((w - 1 - (i : ℕ) : ℕ) : ℤ) := by have := i.2; omega
            rw [e1, hW.setPos _ (by have := i.2; omega), Option.getD_some, hcj, mask_bit]
        · simp
        · intro u v _ _ hu hv
          simp only [Pi.add_apply, mul_add, Finset.sum_add_distrib, hu, hv, add_zero]
        · intro c u _ hu
          have : ∀ i : Fin w, bits (fromVec W junk (List.ofFn fun i => decide (x i ≠ 0))) i * (c • u) (i : ℕ) =
              c * (bits (fromVec W junk (List.ofFn fun i => decide (x i ≠ 0))) i * u i) := fun i => by
            rw [Pi.smul_apply, smul_eq_mul]; ring
          simp only [this, ← Finset.mul_sum, hu, mul_zero]

theorem init_BInv (h : RedGen R Inv den T O e P) {f : (ZMod 2)[X]} {g : σ} (hg : Inv g) :
    BInv R Inv den T e P f fun _ => ⟨true, 0, R.setZero g⟩ := by
  have h1 := h.zero_den g hg
  refine ⟨fun i _ => ⟨h.zero_inv g hg, ?_, ?_⟩, fun i _ h0 => absurd rfl h0⟩
  · show den (R.setZero g) ∈ _
    rw [h1]; exact Submodule.zero_mem _
  · show bits (0 : BitVec w) = P (den (R.setZero g))
    rw [h1, map_zero, bits_zero]

theorem searchParity_vector (h : RedGen R Inv den T O e P) (hW : WordsOK W) {kernel : KernelFn}
    (hK : KernelSpec kernel) {f : (ZMod 2)[X]} (hf : Irreducible f) (hdeg : f.natDegree = R.mexp)
    (hx : ∃ x ∈ M R.bitSize e, x ≠ 0 ∧ aeval T f x = 0) {fuel : ℕ} {junk : BitVec w} {g g' : σ} (hg : Inv g)
    {parity : BitVec w} (hrun : searchParity R W fuel kernel junk g f = .ok (parity, g')) :
    parity ≠ 0 ∧ g' = R.setParity parity g ∧
      ∀ x ∈ Q R.bitSize e T f, ∑ i : Fin w, bits parity i * P x i = 0 := by
  unfold searchParity at hrun
  dsimp only at hrun
  split at hrun
  · exact absurd hrun (by simp)
  · next bases hl =>
    split at hrun
    · exact absurd hrun (by simp)
    · next p hp =>
      obtain ⟨rfl, rfl⟩ := Prod.mk.inj (Except.ok.inj hrun)
      obtain ⟨b1, b2⟩ := searchLoop_spec h hW _ _ _ _ _ (init_BInv h hg) (h.zero_inv g hg)
        (fun j hj => absurd hj (by omega)) hl
      have hdim := finrank_Q h hf hx
      have hWS := WS_eq h b1 (by omega) b2
      obtain ⟨c1, c2⟩ := checkVector_spec hW hK hp
      refine ⟨c1, rfl, fun x hxQ => ?_⟩
      refine c2 _ ?_
      rw [hWS]
      exact ⟨_, hxQ, rfl⟩

/-- **C49.**  For every reducible linear generator and every irreducible `f` of degree `mexp` that annihilates a
non-zero state: whenever `searchParity(g, f)` returns, the vector it returns is not zero and is orthogonal to the
certified word of every state of the small part `f(T)M`, whatever the number of words it has collected. -/
theorem searchParity_orthogonal (h : RedGen R Inv den T O e P) (hW : WordsOK W) {kernel : KernelFn}
    (hK : KernelSpec kernel) {f : (ZMod 2)[X]} (hf : Irreducible f) (hdeg : f.natDegree = R.mexp)
    (hx : ∃ x ∈ M R.bitSize e, x ≠ 0 ∧ aeval T f x = 0) {fuel : ℕ} {junk : BitVec w} {g g' : σ} (hg : Inv g)
    {parity : BitVec w} (hrun : searchParity R W fuel kernel junk g f = .ok (parity, g')) :
    parity ≠ 0 ∧ g' = R.setParity parity g ∧
      ∀ s, Inv s → den s ∈ Q R.bitSize e T f → dot (R.getParity s) parity = 0 := by
  obtain ⟨h1, h2, h3⟩ := searchParity_vector h hW hK hf hdeg hx hg hrun
  refine ⟨h1, h2, fun s hs hsQ => ?_⟩
  rw [dot_bits, h.parity s hs (Q_le h f hsQ)]
  exact h3 _ hsQ

/-- **C49.**  The same in terms of the cofactor: if `q` is coprime to `f`, the vector is orthogonal to the certified
word of every state annihilated by `q`. -/
theorem searchParity_cofactor (h : RedGen R Inv den T O e P) (hW : WordsOK W) {kernel : KernelFn}
    (hK : KernelSpec kernel) {f q : (ZMod 2)[X]} (hf : Irreducible f) (hdeg : f.natDegree = R.mexp)
    (hx : ∃ x ∈ M R.bitSize e, x ≠ 0 ∧ aeval T f x = 0) (hq : IsCoprime f q) {fuel : ℕ} {junk : BitVec w} {g g' : σ}
    (hg : Inv g) {parity : BitVec w} (hrun : searchParity R W fuel kernel junk g f = .ok (parity, g')) {s : σ}
    (hs : Inv s) (hsM : den s ∈ M R.bitSize e) (hsq : aeval T q (den s) = 0) : dot (R.getParity s) parity = 0 := by
  refine (searchParity_orthogonal h hW hK hf hdeg hx hg hrun).2.2 s hs ?_
  obtain ⟨a, b, hab⟩ := hq
  refine ⟨aeval T a (den s), aeval_M h a hsM, ?_⟩
  rw [← Module.End.mul_apply, ← map_mul, mul_comm]
  have h4 : aeval T (a * f + b * q) (den s) = den s := by rw [hab, map_one]; rfl
  rw [map_add, LinearMap.add_apply, map_mul _ b q, Module.End.mul_apply, hsq, map_zero, add_zero] at h4
  exact h4

/-! ## C49: the search ends -/

theorem setStateLoop_total (h : RedGen R Inv den T O e P) {f : (ZMod 2)[X]} (n : ℕ) :
    ∀ (fuel : ℕ) (st : IS σ w), n < fuel → EInv R Inv den T e P f st →
      (den st.rg = 0 ∨ P ((T ^ n) (den st.rg)) ≠ 0) → ∃ st', setStateLoop R fuel st = some st' := by
  induction n with
  | zero =>
    intro fuel st hfu he hor
    obtain ⟨m, rfl⟩ : ∃ m, fuel = m + 1 := ⟨fuel - 1, by omega⟩
    unfold setStateLoop
    split
    · exact ⟨_, rfl⟩
    · next hn =>
      rcases hor with h0 | h0
      · rw [if_pos ((h.isZero_iff _ he.inv (Q_le h f he.mem)).2 h0)]; exact ⟨_, rfl⟩
      · refine absurd (fun h1 => h0 ?_) hn
        rw [pow_zero, Module.End.one_apply, ← he.word, h1, bits_zero]
  | succ n ih =>
    intro fuel st hfu he hor
    obtain ⟨m, rfl⟩ : ∃ m, fuel = m + 1 := ⟨fuel - 1, by omega⟩
    unfold setStateLoop
    split
    · exact ⟨_, rfl⟩
    · split
      · exact ⟨_, rfl⟩
      · refine ih m _ (by omega) (EInv.gen h he.inv he.mem st.zero) ?_
        show den (R.generate st.rg).1 = 0 ∨ P ((T ^ n) (den (R.generate st.rg).1)) ≠ 0
        rw [h.gen_den _ he.inv]
        rcases hor with h0 | h0
        · left; rw [h0, map_zero]
        · right; rw [pow_succ, Module.End.mul_apply] at h0; exact h0

theorem setState_total (h : RedGen R Inv den T O e P) {f : (ZMod 2)[X]} {N : ℕ}
    (hN : ∀ x ∈ Q R.bitSize e T f, x ≠ 0 → ∃ n ≤ N, P ((T ^ n) x) ≠ 0) {fuel : ℕ} (hfu : N < fuel) {st : IS σ w}
    (h1 : Inv st.rg) (h2 : den st.rg ∈ Q R.bitSize e T f) : ∃ st', setState R fuel st = some st' := by
  unfold setState
  split
  · exact ⟨_, rfl⟩
  · have he := EInv.gen h h1 h2 false
    by_cases h0 : den (R.generate st.rg).1 = 0
    · exact setStateLoop_total h 0 fuel _ (by omega) he (Or.inl h0)
    · obtain ⟨n, hn, hn'⟩ := hN _ he.mem h0
      exact setStateLoop_total h n fuel _ (by omega) he (Or.inr hn')

theorem calcBasis_total (h : RedGen R Inv den T O e P) {f : (ZMod 2)[X]} {N : ℕ}
    (hN : ∀ x ∈ Q R.bitSize e T f, x ≠ 0 → ∃ n ≤ N, P ((T ^ n) x) ≠ 0) {fuel : ℕ} (hfu : N < fuel) (k : ℕ) :
    ∀ (pos : ℕ) (st : IS σ w), Inv st.rg → pos + k = R.bitSize → ∃ r, calcBasis R fuel f k pos st = some r := by
  induction k with
  | zero => intro pos st _ _; exact ⟨_, rfl⟩
  | succ k ih =>
    intro pos st h1 hp
    unfold calcBasis
    dsimp only
    have ho := h.one_inv pos st.rg (by omega) h1
    have hd := h.one_den pos st.rg (by omega) h1
    obtain ⟨a1, a2⟩ := Lin.annihilate_correct h.toLinGen f ho
    have hQ : den (Lin.annihilate R.toGenOps f (R.setOneBit pos st.rg)) ∈ Q R.bitSize e T f := by
      rw [a2, hd]; exact ⟨e pos, Submodule.subset_span ⟨⟨pos, by omega⟩, rfl⟩, rfl⟩
    obtain ⟨st1, hs⟩ := setState_total h hN hfu
      (st := { st with rg := Lin.annihilate R.toGenOps f (R.setOneBit pos st.rg) }) a1 hQ
    rw [hs]
    dsimp only
    split
    · exact ih _ _ (setState_spec h
        (st := { st with rg := Lin.annihilate R.toGenOps f (R.setOneBit pos st.rg) }) a1 hQ hs).1.inv (by omega)
    · exact ⟨_, rfl⟩

theorem addBase_total (h : RedGen R Inv den T O e P) (hW : WordsOK W) {f : (ZMod 2)[X]} {N : ℕ}
    (hN : ∀ x ∈ Q R.bitSize e T f, x ≠ 0 → ∃ n ≤ N, P ((T ^ n) x) ≠ 0) {fuel : ℕ} (hfu : N < fuel) (k : ℕ) :
    ∀ (bases : ℕ → IS σ w) (work : IS σ w), BInv R Inv den T e P f bases → EInv R Inv den T e P f work →
      (work.zero = true → work.next = 0) → ∃ r, addBaseLoop R W fuel k bases work = .ok r := by
  induction k with
  | zero => intro bases work _ _ _; exact ⟨_, rfl⟩
  | succ k ih =>
    intro bases work hb hw hz
    unfold addBaseLoop
    -- the state after `get_next_state`
    have hst : ∃ st, (if work.next = 0 then getNextState R fuel work else some work) = some st ∧
        EInv R Inv den T e P f st ∧ ((work.next = 0 ∧ st.zero = true) ∨ (st.zero = false ∧ st.next ≠ 0)) := by
      by_cases h0 : work.next = 0
      · rw [if_pos h0]
        unfold getNextState
        by_cases h1 : work.zero = true
        · rw [if_pos h1]
          exact ⟨work, rfl, hw, Or.inl ⟨h0, h1⟩⟩
        · rw [if_neg h1]
          obtain ⟨st, hs⟩ := setState_total h hN hfu hw.inv hw.mem
          obtain ⟨a, b, -, -⟩ := setState_spec h hw.inv hw.mem hs
          refine ⟨st, hs, a, ?_⟩
          by_cases h2 : st.zero = true
          · exact Or.inl ⟨h0, h2⟩
          · have h2 : st.zero = false := by simpa using h2
            exact Or.inr ⟨h2, b h2⟩
      · rw [if_neg h0]
        refine ⟨work, rfl, hw, Or.inr ⟨?_, h0⟩⟩
        by_contra h1
        exact h0 (hz (by simpa using h1))
    obtain ⟨st, e1, he, hor⟩ := hst
    rw [e1]
    dsimp only
    rcases hor with hc | ⟨hc, hn⟩
    · rw [if_pos hc]; exact ⟨_, rfl⟩
    · rw [if_neg (fun h1 => by rw [h1.2] at hc; exact absurd hc (by decide))]
      obtain ⟨q, hq, hlow⟩ := hW.calc1pos _ hn
      have hqw := low_lt hlow
      rw [hq, if_neg (by omega), if_neg (by omega)]
      split
      · exact ⟨_, rfl⟩
      · refine ih _ _ hb (addState_spec h he (hb.entry _ (by omega))).1 fun h1 => ?_
        have h2 : st.zero = true := h1
        rw [hc] at h2; exact absurd h2 (by decide)

theorem searchLoop_total (h : RedGen R Inv den T O e P) (hW : WordsOK W) {f : (ZMod 2)[X]} {N : ℕ}
    (hN : ∀ x ∈ Q R.bitSize e T f, x ≠ 0 → ∃ n ≤ N, P ((T ^ n) x) ≠ 0) {fuel : ℕ} (hfu : N < fuel) {baseNum : ℤ} (k : ℕ) :
    ∀ (pos : ℕ) (bases : ℕ → IS σ w) (work : IS σ w), BInv R Inv den T e P f bases → Inv work.rg →
      R.bitSize ≤ pos + k → ∃ r, searchLoop R W fuel f baseNum k pos bases work = .ok r := by
  induction k with
  | zero =>
    intro pos bases work _ _ hp
    unfold searchLoop
    rw [if_neg (by omega)]; exact ⟨_, rfl⟩
  | succ k ih =>
    intro pos bases work hb hw hp
    unfold searchLoop
    split
    · next hpos =>
      obtain ⟨m, hm⟩ : ∃ m, R.bitSize - pos = m + 1 := ⟨R.bitSize - pos - 1, by omega⟩
      obtain ⟨⟨work1, pos1⟩, hc⟩ := calcBasis_total h hN hfu (m + 1) pos work hw (by omega)
      rw [hm, hc]
      dsimp only
      obtain ⟨c1, -, c3, c4, -, -⟩ := calcBasis_spec h m _ _ _ _ hw (by omega) hc
      obtain ⟨⟨bases2, work2⟩, ha⟩ := addBase_total h hW hN hfu (w * 10 + 1) bases work1 hb c1 c3
      have ha' : addBase R W fuel bases work1 = .ok (bases2, work2) := ha
      rw [ha']
      dsimp only
      obtain ⟨a1, a2, -, -⟩ := addBase_spec h hW _ _ _ _ _ hb c1 ha
      split
      · exact ⟨_, rfl⟩
      · exact ih _ _ _ a1 a2.inv (by omega)
    · exact ⟨_, rfl⟩

/-- **C49.**  The search ends with a vector, if every non-zero state of the small part shows a non-zero certified word
after at most `N` steps and `bitSize - mexp` is smaller than the word; the loop of `set_state` then runs at most `N + 1`
times. -/
theorem searchParity_bounded (h : RedGen R Inv den T O e P) (hW : WordsOK W) {kernel : KernelFn}
    (hK : KernelSpec kernel) {f : (ZMod 2)[X]} (hf : Irreducible f) (hdeg : f.natDegree = R.mexp)
    (hx : ∃ x ∈ M R.bitSize e, x ≠ 0 ∧ aeval T f x = 0) (hbase : R.bitSize - R.mexp < w) {N : ℕ}
    (hN : ∀ x ∈ Q R.bitSize e T f, x ≠ 0 → ∃ n ≤ N, P ((T ^ n) x) ≠ 0) {fuel : ℕ} (hfu : N < fuel) (junk : BitVec w)
    {g : σ} (hg : Inv g) :
    ∃ parity, searchParity R W fuel kernel junk g f = .ok (parity, R.setParity parity g) := by
  have := Q_finite R.bitSize e T f
  have hdim := finrank_Q h hf hx
  unfold searchParity
  dsimp only
  obtain ⟨bases, hl⟩ := searchLoop_total h hW hN hfu (baseNum := (R.bitSize : ℤ) - (R.mexp : ℤ)) R.bitSize 0 _
    ⟨true, 0, R.setZero g⟩ (init_BInv (f := f) h hg) (h.zero_inv g hg) (by omega)
  rw [hl]
  dsimp only
  obtain ⟨b1, -⟩ := searchLoop_spec h hW _ _ _ _ _ (init_BInv h hg) (h.zero_inv g hg)
    (fun j hj => absurd hj (by omega)) hl
  have hcount := count_eq b1
  have h1 := Submodule.finrank_mono (WS_le b1)
  have h2 := Submodule.finrank_map_le P (Q R.bitSize e T f)
  have hlen := columns_length bases
  unfold searchParityCheckVector
  rw [if_neg (by omega)]
  generalize hA : matrix W junk ((R.bitSize : ℤ) - (R.mexp : ℤ)).toNat (columns bases) = A
  generalize hsz : ((R.bitSize : ℤ) - (R.mexp : ℤ)).toNat = size at A hA
  have hsize : size < w := by omega
  cases hk : kernel w size A with
  | cons x rest => exact ⟨_, rfl⟩
  | nil =>
    exfalso
    -- a linear map to a smaller space has a kernel
    let L : (Fin w → ZMod 2) →ₗ[ZMod 2] (Fin size → ZMod 2) :=
      { toFun := fun x j => ∑ i, x i * A i j
        map_add' := fun x y => by funext j; simp only [Pi.add_apply, add_mul, Finset.sum_add_distrib]
        map_smul' := fun c x => by
          funext j
          simp only [Pi.smul_apply, smul_eq_mul, mul_assoc, ← Finset.mul_sum, RingHom.id_apply] }
    have hL : ¬ Function.Injective L := fun hinj => by
      have := LinearMap.finrank_le_finrank_of_injective hinj
      rw [Module.finrank_fintype_fun_eq_card, Module.finrank_fintype_fun_eq_card, Fintype.card_fin, Fintype.card_fin] at this
      omega
    apply hL
    rw [← LinearMap.ker_eq_bot, LinearMap.ker_eq_bot']
    intro x hx
    have h3 := (hK.ker w size A x).2 fun j => congrFun hx j
    rw [hk] at h3
    have h4 : Set.range ([] : List (Fin w → ZMod 2)).get = ∅ := by
      ext y; simp
    rw [h4, Submodule.span_empty] at h3
    exact h3

/-- **C49.**  The search ends with a vector, if every non-zero state of the small part shows a non-zero certified word
sooner or later and `bitSize - mexp` is smaller than the word. -/
theorem searchParity_total (h : RedGen R Inv den T O e P) (hW : WordsOK W) {kernel : KernelFn}
    (hK : KernelSpec kernel) {f : (ZMod 2)[X]} (hf : Irreducible f) (hdeg : f.natDegree = R.mexp)
    (hx : ∃ x ∈ M R.bitSize e, x ≠ 0 ∧ aeval T f x = 0) (hbase : R.bitSize - R.mexp < w)
    (hobs : ∀ x ∈ Q R.bitSize e T f, x ≠ 0 → ∃ n, P ((T ^ n) x) ≠ 0) :
    ∃ N, ∀ fuel, N < fuel → ∀ (junk : BitVec w) (g : σ), Inv g →
      ∃ parity, searchParity R W fuel kernel junk g f = .ok (parity, R.setParity parity g) := by
  classical
  have := Q_finite R.bitSize e T f
  have hfin : Finite (Q R.bitSize e T f) := Module.finite_of_finite (ZMod 2)
  have := Fintype.ofFinite (Q R.bitSize e T f)
  choose! n hn using hobs
  refine ⟨Finset.univ.sup fun x : Q R.bitSize e T f => n x, fun fuel hfu junk g hg => ?_⟩
  exact searchParity_bounded h hW hK hf hdeg hx hbase (fun x hxQ hx0 =>
    ⟨n x, Finset.le_sup (f := fun x : Q R.bitSize e T f => n x) (Finset.mem_univ (⟨x, hxQ⟩ : Q R.bitSize e T f)),
      hn x hxQ hx0⟩) hfu junk hg

/-- **C49.**  If the certified words of the small part are all words, there is no parity vector and the search does
not return one. -/
theorem searchParity_none (h : RedGen R Inv den T O e P) (hW : WordsOK W) {kernel : KernelFn}
    (hK : KernelSpec kernel) {f : (ZMod 2)[X]} (hf : Irreducible f) (hdeg : f.natDegree = R.mexp)
    (hx : ∃ x ∈ M R.bitSize e, x ≠ 0 ∧ aeval T f x = 0)
    (hall : ∀ u : BitVec w, ∃ s, Inv s ∧ den s ∈ Q R.bitSize e T f ∧ R.getParity s = u) {fuel : ℕ} {junk : BitVec w}
    {g : σ} (hg : Inv g) (r : BitVec w × σ) : searchParity R W fuel kernel junk g f ≠ .ok r := by
  intro hrun
  obtain ⟨h1, -, h3⟩ := searchParity_orthogonal h hW hK hf hdeg hx hg (parity := r.1) (g' := r.2) hrun
  obtain ⟨i, hi⟩ : ∃ i : Fin w, bits r.1 i ≠ 0 := by
    by_contra hne
    push Not at hne
    apply h1
    apply bits_eq_zero.1
    funext i
    by_cases hi : i < w
    · exact hne ⟨i, hi⟩
    · unfold bits; rw [BitVec.getMsbD_of_ge _ _ (by omega)]; rfl
  obtain ⟨s, hs, hsQ, hsu⟩ := hall (BitVec.twoPow w (w - 1 - i))
  have h4 := h3 s hs hsQ
  rw [hsu, dot_bits, Finset.sum_eq_single i] at h4
  · have h5 : bits (BitVec.twoPow w (w - 1 - i)) i = 1 := by
      unfold bits
      rw [BitVec.getMsbD_eq_getLsbD, BitVec.getLsbD_twoPow]
      have : w - 1 - (i : ℕ) < w := by have := i.2; omega
      simp [this]
    rw [h5, mul_one] at h4
    exact hi h4
  · intro j _ hj
    have h5 : bits (BitVec.twoPow w (w - 1 - i)) j = 0 := by
      unfold bits
      rw [BitVec.getMsbD_eq_getLsbD, BitVec.getLsbD_twoPow]
      have : ¬ (w - 1 - (i : ℕ) = w - 1 - (j : ℕ)) := by
        have := i.2; have := j.2; have : (i : ℕ) ≠ j := fun h => hj (Fin.ext h).symm
        omega
      simp [this]
    rw [h5, mul_zero]
  · intro h; exact absurd (Finset.mem_univ _) h

/-! ## C48 -/

/-- **C48.**  Let `f`, irreducible of Mersenne degree, and its cofactor `q` annihilate together the reachable
states, and let `parity` be orthogonal to the certified words of the states annihilated by `q`.  A state whose
certified word has odd parity has a non-zero component in the large part, and the number of steps after which it
recurs is a multiple of `2^deg f - 1`. -/
theorem odd_parity_period (h : LinGen R.toGenOps Inv den T O) {f q : (ZMod 2)[X]} (hf : Irreducible f)
    (hm : (2 ^ f.natDegree - 1).Prime) (hann : ∀ x ∈ M R.bitSize e, aeval T (f * q) x = 0)
    {parity : BitVec w} (horth : ∀ s, Inv s → den s ∈ M R.bitSize e → aeval T q (den s) = 0 → dot (R.getParity s) parity = 0)
    {s : σ} (hs : Inv s) (hsM : den s ∈ M R.bitSize e) (hodd : dot (R.getParity s) parity = 1) :
    aeval T q (den s) ≠ 0 ∧ aeval T f (aeval T q (den s)) = 0 ∧
      ∀ l, den (stateAt R.toGenOps s l) = den s → 2 ^ f.natDegree - 1 ∣ l := by
  have h0 : aeval T q (den s) ≠ 0 := fun h0 => by
    rw [horth s hs hsM h0] at hodd; exact absurd hodd (by decide)
  have hfq : aeval T f (aeval T q (den s)) = 0 := by
    rw [← Module.End.mul_apply, ← map_mul]; exact hann _ hsM
  refine ⟨h0, hfq, fun l hl => ?_⟩
  rw [(stateAt_spec h hs l).2] at hl
  have hprim := Period.primitive_of_mersenne hf hm
  refine (Search.period_of_primitive hf.natDegree_pos hprim hfq h0 l).1 ?_
  have hX : T ^ l = aeval T (X ^ l : (ZMod 2)[X]) := by rw [map_pow, aeval_X]
  rw [hX] at hl ⊢
  rw [← Module.End.mul_apply, ← map_mul, mul_comm, map_mul, Module.End.mul_apply, hl]

/-- **C48, C49.**  Together: a state with odd parity with respect to the vector found by `searchParity` recurs only
after a multiple of `2^mexp - 1` steps. -/
theorem searchParity_period (h : RedGen R Inv den T O e P) (hW : WordsOK W) {kernel : KernelFn}
    (hK : KernelSpec kernel) {f q : (ZMod 2)[X]} (hf : Irreducible f) (hdeg : f.natDegree = R.mexp)
    (hm : (2 ^ R.mexp - 1).Prime) (hx : ∃ x ∈ M R.bitSize e, x ≠ 0 ∧ aeval T f x = 0) (hq : IsCoprime f q)
    (hann : ∀ x ∈ M R.bitSize e, aeval T (f * q) x = 0) {fuel : ℕ} {junk : BitVec w} {g g' : σ}
    (hg : Inv g) {parity : BitVec w} (hrun : searchParity R W fuel kernel junk g f = .ok (parity, g')) {s : σ}
    (hs : Inv s) (hsM : den s ∈ M R.bitSize e) (hodd : dot (R.getParity s) parity = 1) {l : ℕ}
    (hl : den (stateAt R.toGenOps s l) = den s) : 2 ^ R.mexp - 1 ∣ l := by
  have h1 := (odd_parity_period h.toLinGen hf (by rw [hdeg]; exact hm) hann
    (fun s hs hsM hsq => searchParity_cofactor h hW hK hf hdeg hx hq hg hrun hs hsM hsq) hs hsM hodd).2.2 l hl
  rwa [hdeg] at h1

end MTT.Parity
