import Verif.Parity.Model
import Verif.Lin.Props
import Verif.Spec.Dot
import Mathlib.LinearAlgebra.FiniteDimensional.Lemmas
import Mathlib.RingTheory.Polynomial.DegreeLT

/-!
# Lemmas about the loops of `searchParity`
-/

namespace MTT.Parity

open Polynomial PIS

variable {σ S : Type} {w : ℕ} [AddCommGroup S] [Module (ZMod 2) S]

/-- The part of the state space reached from the one-bit states. -/
def M (bitSize : ℕ) (e : ℕ → S) : Submodule (ZMod 2) S := Submodule.span (ZMod 2) (Set.range fun k : Fin bitSize => e k)

/-- Contract of a reducible generator object (`ReducibleGenerator.hpp`): a linear generator; `setOneBit k` sets the
state whose value is the `k`-th of `bitSize` independent vectors, whose span the transition maps injectively into
itself; `getParityValue` is linear; `isZero` recognises the zero state. -/
structure RedGen (R : ROps σ w) (Inv : σ → Prop) (den : σ → S) (T : S →ₗ[ZMod 2] S) (O : S →ₗ[ZMod 2] V)
    (e : ℕ → S) (P : S →ₗ[ZMod 2] V) : Prop extends LinGen R.toGenOps Inv den T O where
  one_inv : ∀ k s, k < R.bitSize → Inv s → Inv (R.setOneBit k s)
  one_den : ∀ k s, k < R.bitSize → Inv s → den (R.setOneBit k s) = e k
  indep : LinearIndependent (ZMod 2) (fun k : Fin R.bitSize => e k)
  closed : ∀ x ∈ M R.bitSize e, T x ∈ M R.bitSize e
  inj : ∀ x ∈ M R.bitSize e, T x = 0 → x = 0
  isZero_iff : ∀ s, Inv s → den s ∈ M R.bitSize e → (R.isZero s = true ↔ den s = 0)
  parity : ∀ s, Inv s → den s ∈ M R.bitSize e → bits (R.getParity s) = P (den s)

/-- The image of the reachable part under `f(T)`. -/
noncomputable def Q (bitSize : ℕ) (e : ℕ → S) (T : S →ₗ[ZMod 2] S) (f : (ZMod 2)[X]) : Submodule (ZMod 2) S :=
  (M bitSize e).map (aeval T f)

/-- What the algorithm needs of the word operations. -/
structure WordsOK (W : WordOps w) : Prop where
  calc1pos : IsCalc1pos W.calc1pos
  setPos : ∀ k : ℕ, k < w → W.setPos k = some (BitVec.twoPow w k)

variable {R : ROps σ w} {W : WordOps w} {Inv : σ → Prop} {den : σ → S} {T : S →ₗ[ZMod 2] S} {O : S →ₗ[ZMod 2] V}
  {e : ℕ → S} {P : S →ₗ[ZMod 2] V}

theorem aeval_comm (T : S →ₗ[ZMod 2] S) (p : (ZMod 2)[X]) (x : S) : aeval T p (T x) = T (aeval T p x) := by
  have h1 : aeval T (p * X) x = aeval T p (T x) := by
    rw [map_mul, aeval_X, Module.End.mul_apply]
  have h2 : aeval T (X * p) x = T (aeval T p x) := by
    rw [map_mul, aeval_X, Module.End.mul_apply]
  rw [← h1, ← h2, mul_comm]

theorem aeval_M (h : RedGen R Inv den T O e P) (p : (ZMod 2)[X]) {x : S} (hx : x ∈ M R.bitSize e) :
    aeval T p x ∈ M R.bitSize e := by
  induction p using Polynomial.induction_on' with
  | add p q hp hq => rw [map_add, LinearMap.add_apply]; exact Submodule.add_mem _ hp hq
  | monomial n a =>
    rw [aeval_monomial, Module.End.mul_apply, Module.algebraMap_end_apply]
    refine Submodule.smul_mem _ _ ?_
    induction n with
    | zero => exact hx
    | succ n ih => rw [pow_succ', Module.End.mul_apply]; exact h.closed _ ih

theorem Q_le (h : RedGen R Inv den T O e P) (f : (ZMod 2)[X]) : Q R.bitSize e T f ≤ M R.bitSize e := by
  rintro _ ⟨x, hx, rfl⟩
  exact aeval_M h f hx

theorem Q_closed (h : RedGen R Inv den T O e P) (f : (ZMod 2)[X]) {x : S} (hx : x ∈ Q R.bitSize e T f) :
    T x ∈ Q R.bitSize e T f := by
  obtain ⟨y, hy, rfl⟩ := hx
  exact ⟨T y, h.closed y hy, aeval_comm T f y⟩

section

variable (R Inv den T e P)

/-- Invariant of an `internal_state`. -/
structure EInv (f : (ZMod 2)[X]) (st : IS σ w) : Prop where
  inv : Inv st.rg
  mem : den st.rg ∈ Q R.bitSize e T f
  word : bits st.next = P (den st.rg)

/-- Invariant of the array `bases`. -/
structure BInv (f : (ZMod 2)[X]) (bases : ℕ → IS σ w) : Prop where
  entry : ∀ i, i < w → EInv R Inv den T e P f (bases i)
  low : ∀ i, i < w → (bases i).next ≠ 0 → Low (bits (bases i).next) i

end

/-- The span of the words of the bases. -/
def WS (bases : ℕ → IS σ w) : Submodule (ZMod 2) V :=
  Submodule.span (ZMod 2) (Set.range fun i : Fin w => bits (bases i).next)

theorem word_mem_WS (bases : ℕ → IS σ w) {i : ℕ} (hi : i < w) : bits (bases i).next ∈ WS bases :=
  Submodule.subset_span ⟨⟨i, hi⟩, rfl⟩

theorem EInv.gen (h : RedGen R Inv den T O e P) {f : (ZMod 2)[X]} {s : σ} (h1 : Inv s)
    (h2 : den s ∈ Q R.bitSize e T f) (z : Bool) :
    EInv R Inv den T e P f ⟨z, R.getParity (R.generate s).1, (R.generate s).1⟩ := by
  have h3 := h.gen_den s h1
  have h4 := h.gen_inv s h1
  have h5 : den (R.generate s).1 ∈ Q R.bitSize e T f := by rw [h3]; exact Q_closed h f h2
  exact ⟨h4, h5, h.parity _ h4 (Q_le h f h5)⟩

theorem setStateLoop_spec (h : RedGen R Inv den T O e P) {f : (ZMod 2)[X]} (fuel : ℕ) :
    ∀ (st st' : IS σ w), EInv R Inv den T e P f st → st.zero = false → setStateLoop R fuel st = some st' →
      EInv R Inv den T e P f st' ∧ (st'.zero = false → st'.next ≠ 0) ∧ (st'.zero = true → st'.next = 0) ∧
      (st.next ≠ 0 → st' = st) := by
  induction fuel with
  | zero => intro st st' _ _ h'; exact absurd h' (by simp [setStateLoop])
  | succ fuel ih =>
    intro st st' he hz h'
    unfold setStateLoop at h'
    split at h'
    · next hn =>
      obtain rfl := Option.some.inj h'
      exact ⟨he, fun _ => hn, fun h1 => by rw [hz] at h1; exact absurd h1 (by decide), fun _ => rfl⟩
    · next hn =>
      have hn' : st.next = 0 := by simpa using hn
      split at h'
      · obtain rfl := Option.some.inj h'
        exact ⟨⟨he.inv, he.mem, he.word⟩, fun h1 => absurd h1 (by simp), fun _ => hn', fun h1 => absurd hn' h1⟩
      · obtain ⟨a, b, c, _⟩ := ih _ st' (EInv.gen h he.inv he.mem st.zero) hz h'
        exact ⟨a, b, c, fun h1 => absurd hn' h1⟩

theorem setState_spec (h : RedGen R Inv den T O e P) {f : (ZMod 2)[X]} {fuel : ℕ} {st st' : IS σ w}
    (h1 : Inv st.rg) (h2 : den st.rg ∈ Q R.bitSize e T f) (h' : setState R fuel st = some st') :
    EInv R Inv den T e P f st' ∧ (st'.zero = false → st'.next ≠ 0) ∧ (st'.zero = true → st'.next = 0) ∧
      (P (T (den st.rg)) = 0 ∨ P (T (den st.rg)) = bits st'.next) := by
  unfold setState at h'
  split at h'
  · next hz =>
    obtain rfl := Option.some.inj h'
    have h0 := (h.isZero_iff _ h1 (Q_le h f h2)).1 hz
    refine ⟨⟨h1, h2, ?_⟩, fun h => absurd h (by simp), fun _ => rfl, Or.inl ?_⟩
    · show bits 0 = P (den st.rg)
      rw [h0, map_zero, bits_zero]
    · rw [h0, map_zero, map_zero]
  · have he := EInv.gen h h1 h2 false
    obtain ⟨a, b, c, d⟩ := setStateLoop_spec h fuel _ st' he rfl h'
    refine ⟨a, b, c, ?_⟩
    have hw : bits (R.getParity (R.generate st.rg).1) = P (T (den st.rg)) := by
      have := he.word
      dsimp only at this
      rw [this, h.gen_den _ h1]
    by_cases hn : R.getParity (R.generate st.rg).1 = 0
    · left; rw [← hw, hn, bits_zero]
    · right; rw [d hn, hw]

theorem calcBasis_spec (h : RedGen R Inv den T O e P) {f : (ZMod 2)[X]} {fuel : ℕ} (k : ℕ) :
    ∀ (pos pos' : ℕ) (st st' : IS σ w), Inv st.rg → pos + (k + 1) = R.bitSize →
      calcBasis R fuel f (k + 1) pos st = some (st', pos') →
      EInv R Inv den T e P f st' ∧ (st'.zero = false → st'.next ≠ 0) ∧ (st'.zero = true → st'.next = 0) ∧
      pos < pos' ∧ pos' ≤ R.bitSize ∧
      ∀ j, pos ≤ j → j < pos' → P (T (aeval T f (e j))) = 0 ∨ P (T (aeval T f (e j))) = bits st'.next := by
  induction k with
  | zero =>
    intro pos pos' st st' h1 hp h'
    unfold calcBasis at h'
    dsimp only at h'
    have ho := h.one_inv pos st.rg (by omega) h1
    have hd := h.one_den pos st.rg (by omega) h1
    obtain ⟨a1, a2⟩ := Lin.annihilate_correct h.toLinGen f ho
    have hQ : den (Lin.annihilate R.toGenOps f (R.setOneBit pos st.rg)) ∈ Q R.bitSize e T f := by
      rw [a2, hd]; exact ⟨e pos, Submodule.subset_span ⟨⟨pos, by omega⟩, rfl⟩, rfl⟩
    split at h'
    · exact absurd h' (by simp)
    · next st1 hs =>
      obtain ⟨b1, b2, b3, b4⟩ := setState_spec h (st := { st with rg := Lin.annihilate R.toGenOps f (R.setOneBit pos st.rg) })
        a1 hQ hs
      dsimp only at b4
      rw [a2, hd] at b4
      have h2 : (st1, pos + 1) = (st', pos') := by
        split at h'
        · unfold calcBasis at h'; exact Option.some.inj h'
        · exact Option.some.inj h'
      obtain ⟨rfl, rfl⟩ := Prod.mk.inj h2
      refine ⟨b1, b2, b3, by omega, by omega, fun j hj hj' => ?_⟩
      obtain rfl : j = pos := by omega
      exact b4
  | succ k ih =>
    intro pos pos' st st' h1 hp h'
    unfold calcBasis at h'
    dsimp only at h'
    have ho := h.one_inv pos st.rg (by omega) h1
    have hd := h.one_den pos st.rg (by omega) h1
    obtain ⟨a1, a2⟩ := Lin.annihilate_correct h.toLinGen f ho
    have hQ : den (Lin.annihilate R.toGenOps f (R.setOneBit pos st.rg)) ∈ Q R.bitSize e T f := by
      rw [a2, hd]; exact ⟨e pos, Submodule.subset_span ⟨⟨pos, by omega⟩, rfl⟩, rfl⟩
    split at h'
    · exact absurd h' (by simp)
    · next st1 hs =>
      obtain ⟨b1, b2, b3, b4⟩ := setState_spec h (st := { st with rg := Lin.annihilate R.toGenOps f (R.setOneBit pos st.rg) })
        a1 hQ hs
      dsimp only at b4
      rw [a2, hd] at b4
      split at h'
      · next hz =>
        obtain ⟨c1, c2, c3, c4, c5, c6⟩ := ih (pos + 1) pos' st1 st' b1.inv (by omega) h'
        refine ⟨c1, c2, c3, by omega, c5, fun j hj hj' => ?_⟩
        rcases Nat.eq_or_lt_of_le hj with h2 | h2
        · subst h2
          left
          rcases b4 with h3 | h3
          · exact h3
          · rw [h3, b3 hz, bits_zero]
        · exact c6 j (by omega) hj'
      · obtain ⟨rfl, rfl⟩ := Prod.mk.inj (Option.some.inj h')
        refine ⟨b1, b2, b3, by omega, by omega, fun j hj hj' => ?_⟩
        obtain rfl : j = pos := by omega
        exact b4

theorem addState_spec (h : RedGen R Inv den T O e P) {f : (ZMod 2)[X]} {a b : IS σ w}
    (ha : EInv R Inv den T e P f a) (hb : EInv R Inv den T e P f b) :
    EInv R Inv den T e P f (addState R a b) ∧ bits (addState R a b).next = bits a.next + bits b.next ∧
      den (addState R a b).rg = den a.rg + den b.rg := by
  have h1 := h.add_den a.rg b.rg ha.inv hb.inv
  refine ⟨⟨h.add_inv _ _ ha.inv hb.inv, ?_, ?_⟩, bits_xor _ _, h1⟩
  · show den (R.add a.rg b.rg) ∈ _
    rw [h1]; exact Submodule.add_mem _ ha.mem hb.mem
  · show bits (a.next ^^^ b.next) = P (den (R.add a.rg b.rg))
    rw [h1, bits_xor, ha.word, hb.word, map_add]

theorem low_lt {x : BitVec w} {i : ℕ} (h : Low (bits x) i) : i < w := by
  by_contra hi
  have := h.1
  unfold bits at this
  rw [BitVec.getMsbD_of_ge _ _ (by omega)] at this
  exact absurd this (by decide)

theorem WS_update {bases : ℕ → IS σ w} {p : ℕ} (h0 : (bases p).next = 0) (st : IS σ w) :
    WS bases ≤ WS (Function.update bases p st) := by
  refine Submodule.span_le.2 ?_
  rintro _ ⟨i, rfl⟩
  by_cases hi : (i : ℕ) = p
  · show bits (bases i).next ∈ _
    rw [hi, h0, bits_zero]; exact Submodule.zero_mem _
  · have := word_mem_WS (Function.update bases p st) i.2
    rw [Function.update_of_ne hi] at this
    exact this

theorem addBase_spec (h : RedGen R Inv den T O e P) (hW : WordsOK W) {f : (ZMod 2)[X]} {fuel : ℕ} (k : ℕ) :
    ∀ (bases bases' : ℕ → IS σ w) (work work' : IS σ w), BInv R Inv den T e P f bases → EInv R Inv den T e P f work →
      addBaseLoop R W fuel k bases work = .ok (bases', work') →
      BInv R Inv den T e P f bases' ∧ EInv R Inv den T e P f work' ∧ WS bases ≤ WS bases' ∧
      ((∀ i, Low (bits work.next) i → i < k) → bits work.next ∈ WS bases') := by
  induction k with
  | zero =>
    intro bases bases' work work' hb hw h'
    unfold addBaseLoop at h'
    obtain ⟨rfl, rfl⟩ := Prod.mk.inj (Except.ok.inj h')
    refine ⟨hb, hw, le_rfl, fun hl => ?_⟩
    by_cases hn : work.next = 0
    · rw [hn, bits_zero]; exact Submodule.zero_mem _
    · obtain ⟨i, _, hi⟩ := hW.calc1pos _ hn
      exact absurd (hl i hi) (by omega)
  | succ k ih =>
    intro bases bases' work work' hb hw h'
    unfold addBaseLoop at h'
    split at h'
    · exact absurd h' (by simp)
    · next st hst =>
      -- the state after `get_next_state`
      have hst' : EInv R Inv den T e P f st ∧ (work.next ≠ 0 → st = work) := by
        split at hst
        · next h0 =>
          unfold getNextState at hst
          split at hst
          · obtain rfl := Option.some.inj hst
            exact ⟨hw, fun _ => rfl⟩
          · exact ⟨(setState_spec h hw.inv hw.mem hst).1, fun h1 => absurd h0 h1⟩
        · obtain rfl := Option.some.inj hst
          exact ⟨hw, fun _ => rfl⟩
      obtain ⟨he, hsame⟩ := hst'
      split at h'
      · next hz =>
        obtain ⟨rfl, rfl⟩ := Prod.mk.inj (Except.ok.inj h')
        refine ⟨hb, he, le_rfl, fun _ => ?_⟩
        rw [hz.1, bits_zero]; exact Submodule.zero_mem _
      · next hz =>
        dsimp only at h'
        split at h'
        · exact absurd h' (by simp)
        split at h'
        · exact absurd h' (by simp)
        next hge hlt =>
        have hnn : st.next ≠ 0 ∨ st.next = 0 := (em _).symm
        generalize hpv : W.calc1pos st.next = pv at h' hge hlt
        have hp : pv.toNat < w := by omega
        have hbp := hb.entry _ hp
        split at h'
        · next hemp =>
          obtain ⟨rfl, rfl⟩ := Prod.mk.inj (Except.ok.inj h')
          obtain ⟨s1, s2, s3⟩ := addState_spec h hbp he
          rw [hemp, bits_zero, zero_add] at s2
          have hself : Function.update bases pv.toNat (addState R (bases pv.toNat) st) pv.toNat =
              addState R (bases pv.toNat) st := Function.update_self _ _ _
          have hne : ∀ i, i ≠ pv.toNat → Function.update bases pv.toNat (addState R (bases pv.toNat) st) i = bases i :=
            fun i hi => Function.update_of_ne hi _ _
          refine ⟨⟨fun i hi => ?_, fun i hi hi0 => ?_⟩, he, WS_update hemp _, fun _ => ?_⟩
          · by_cases h1 : i = pv.toNat
            · rw [h1, hself]; exact s1
            · rw [hne i h1]; exact hb.entry i hi
          · by_cases h1 : i = pv.toNat
            · rw [h1, hself] at hi0 ⊢
              have h2 : st.next ≠ 0 := by
                intro h2; apply hi0; apply bits_eq_zero.1; rw [s2, h2, bits_zero]
              obtain ⟨q, hq, hlow⟩ := hW.calc1pos _ h2
              rw [s2]
              have : q = pv.toNat := by omega
              rw [← this]; exact hlow
            · rw [hne i h1] at hi0 ⊢; exact hb.low i hi hi0
          · by_cases hn : work.next = 0
            · rw [hn, bits_zero]; exact Submodule.zero_mem _
            · have := word_mem_WS (Function.update bases pv.toNat (addState R (bases pv.toNat) st)) hp
              rw [hself, s2] at this
              rw [← hsame hn]
              exact this
        · next hfull =>
          obtain ⟨s1, s2, _⟩ := addState_spec h he hbp
          obtain ⟨c1, c2, c3, c4⟩ := ih _ _ _ _ hb s1 h'
          refine ⟨c1, c2, c3, fun hl => ?_⟩
          by_cases hn : work.next = 0
          · rw [hn, bits_zero]; exact Submodule.zero_mem _
          · have hsm := hsame hn
            subst hsm
            obtain ⟨q, hq, hlow⟩ := hW.calc1pos _ hn
            have hqk := hl q hlow
            have hqp : q = pv.toNat := by omega
            have hbl := hb.low _ hp hfull
            rw [← hqp] at hbl
            have hmem := c4 (by
              intro i hi
              rw [s2] at hi
              by_contra hik
              have h1 := hi.1
              rw [← hqp] at h1
              rw [Pi.add_apply] at h1
              rcases Nat.eq_or_lt_of_le (show q ≤ i by omega) with h2 | h2
              · rw [← h2, hlow.1, hbl.1] at h1; exact absurd h1 (by decide)
              · rw [hlow.2 i h2, hbl.2 i h2] at h1; exact absurd h1 (by decide))
            rw [s2] at hmem
            have h3 := Submodule.add_mem _ hmem (c3 (word_mem_WS bases hp))
            rw [add_assoc, V_add_self, add_zero] at h3
            exact h3

theorem searchLoop_spec (h : RedGen R Inv den T O e P) (hW : WordsOK W) {f : (ZMod 2)[X]} {fuel : ℕ} {baseNum : ℤ} (k : ℕ) :
    ∀ (pos : ℕ) (bases bases' : ℕ → IS σ w) (work : IS σ w), BInv R Inv den T e P f bases → Inv work.rg →
      (∀ j, j < pos → P (T (aeval T f (e j))) ∈ WS bases) →
      searchLoop R W fuel f baseNum k pos bases work = .ok bases' →
      BInv R Inv den T e P f bases' ∧
        ((∀ j, j < R.bitSize → P (T (aeval T f (e j))) ∈ WS bases') ∨ (countBases bases' : ℤ) ≥ baseNum) := by
  induction k with
  | zero =>
    intro pos bases bases' work hb hw hj h'
    unfold searchLoop at h'
    split at h'
    · exact absurd h' (by simp)
    · obtain rfl := Except.ok.inj h'
      exact ⟨hb, Or.inl fun j hj' => hj j (by omega)⟩
  | succ k ih =>
    intro pos bases bases' work hb hw hj h'
    unfold searchLoop at h'
    split at h'
    · next hpos =>
      split at h'
      · exact absurd h' (by simp)
      · next work1 pos1 hc =>
        obtain ⟨m, hm⟩ : ∃ m, R.bitSize - pos = m + 1 := ⟨R.bitSize - pos - 1, by omega⟩
        rw [hm] at hc
        obtain ⟨c1, -, -, c4, c5, c6⟩ := calcBasis_spec h m _ _ _ _ hw (by omega) hc
        split at h'
        · exact absurd h' (by simp)
        · next bases2 work2 ha =>
          obtain ⟨a1, a2, a3, a4⟩ := addBase_spec h hW _ _ _ _ _ hb c1 ha
          have a5 := a4 fun i hi => by have := low_lt hi; omega
          split at h'
          · next hcount =>
            obtain rfl := Except.ok.inj h'
            exact ⟨a1, Or.inr hcount⟩
          · refine ih pos1 bases2 bases' work2 a1 a2.inv (fun j hj' => ?_) h'
            by_cases h1 : j < pos
            · exact a3 (hj j h1)
            · rcases c6 j (by omega) hj' with h2 | h2
              · rw [h2]; exact Submodule.zero_mem _
              · rw [h2]; exact a5
    · obtain rfl := Except.ok.inj h'
      exact ⟨hb, Or.inl fun j hj' => hj j (by omega)⟩

/-! ## The words collected -/

/-- Words with different lowest bits are independent. -/
theorem indep_of_low {ι : Type} [Fintype ι] (v : ι → V) (p : ι → ℕ) (hp : Function.Injective p) (hl : ∀ i, Low (v i) (p i)) :
    LinearIndependent (ZMod 2) v := by
  classical
  rw [Fintype.linearIndependent_iff]
  intro g hg
  by_contra hne
  push Not at hne
  obtain ⟨i0, hi0⟩ := hne
  have hS : (Finset.univ.filter fun i => g i ≠ 0).Nonempty := ⟨i0, by simp [hi0]⟩
  obtain ⟨m, hm, hmax⟩ := Finset.exists_max_image _ p hS
  have hgm : g m ≠ 0 := (Finset.mem_filter.1 hm).2
  have h1 := congrFun hg (p m)
  rw [Finset.sum_apply, Finset.sum_eq_single m] at h1
  · rw [Pi.smul_apply, (hl m).1, smul_eq_mul, mul_one] at h1
    exact hgm h1
  · intro i _ hi
    by_cases hgi : g i = 0
    · rw [hgi, zero_smul]; rfl
    · have h2 := hmax i (Finset.mem_filter.2 ⟨Finset.mem_univ _, hgi⟩)
      have h3 : p i ≠ p m := fun h => hi (hp h)
      rw [Pi.smul_apply, (hl i).2 (p m) (by omega), smul_zero]
  · intro h; exact absurd (Finset.mem_univ _) h

theorem M_finite (n : ℕ) (e : ℕ → S) : FiniteDimensional (ZMod 2) (M n e) :=
  FiniteDimensional.span_of_finite (ZMod 2) (Set.finite_range _)

theorem Q_finite (n : ℕ) (e : ℕ → S) (T : S →ₗ[ZMod 2] S) (f : (ZMod 2)[X]) :
    FiniteDimensional (ZMod 2) (Q n e T f) := by
  have := M_finite n e
  unfold Q; infer_instance

/-- The number of non-empty bases is the dimension of the space of words. -/
theorem count_eq {f : (ZMod 2)[X]} {bases : ℕ → IS σ w} (hb : BInv R Inv den T e P f bases) :
    countBases bases = Module.finrank (ZMod 2) (WS bases) := by
  classical
  let F := (Finset.range w).filter fun i => (bases i).next ≠ 0
  have hF : ∀ i : F, (i : ℕ) < w ∧ (bases i).next ≠ 0 := fun i => by
    have := Finset.mem_filter.1 i.2
    exact ⟨Finset.mem_range.1 this.1, this.2⟩
  have hli : LinearIndependent (ZMod 2) fun i : F => bits (bases i).next :=
    indep_of_low _ (fun i : F => (i : ℕ)) Subtype.val_injective (fun i => hb.low i (hF i).1 (hF i).2)
  have hspan : WS bases = Submodule.span (ZMod 2) (Set.range fun i : F => bits (bases i).next) := by
    apply le_antisymm
    · refine Submodule.span_le.2 ?_
      rintro _ ⟨i, rfl⟩
      by_cases hi : (bases i).next = 0
      · show bits (bases i).next ∈ _
        rw [hi, bits_zero]; exact Submodule.zero_mem _
      · exact Submodule.subset_span ⟨⟨i, Finset.mem_filter.2 ⟨Finset.mem_range.2 i.2, hi⟩⟩, rfl⟩
    · refine Submodule.span_le.2 ?_
      rintro _ ⟨i, rfl⟩
      exact word_mem_WS bases (hF i).1
  rw [hspan, finrank_span_eq_card hli, Fintype.card_coe]
  rfl

theorem WS_le {f : (ZMod 2)[X]} {bases : ℕ → IS σ w} (hb : BInv R Inv den T e P f bases) :
    WS bases ≤ (Q R.bitSize e T f).map P := by
  refine Submodule.span_le.2 ?_
  rintro _ ⟨i, rfl⟩
  show bits (bases i).next ∈ _
  rw [(hb.entry i i.2).word]
  exact ⟨_, (hb.entry i i.2).mem, rfl⟩

/-- The transition is onto on the image of `f(T)`. -/
theorem Q_onto (h : RedGen R Inv den T O e P) (f : (ZMod 2)[X]) {x : S} (hx : x ∈ Q R.bitSize e T f) :
    ∃ y ∈ Q R.bitSize e T f, T y = x := by
  have := Q_finite R.bitSize e T f
  have hT : ∀ y ∈ Q R.bitSize e T f, T y ∈ Q R.bitSize e T f := fun y hy => Q_closed h f hy
  have hinj : Function.Injective (T.restrict hT) := by
    rw [← LinearMap.ker_eq_bot, LinearMap.ker_eq_bot']
    intro y hy
    have h1 : T y = 0 := congrArg Subtype.val hy
    exact Subtype.ext (h.inj y (Q_le h f y.2) h1)
  obtain ⟨y, hy⟩ := (LinearMap.injective_iff_surjective.1 hinj) ⟨x, hx⟩
  exact ⟨y, y.2, congrArg Subtype.val hy⟩

/-- The words collected span the words of the image of `f(T)`. -/
theorem WS_eq (h : RedGen R Inv den T O e P) {f : (ZMod 2)[X]} {bases : ℕ → IS σ w} (hb : BInv R Inv den T e P f bases)
    {baseNum : ℤ} (hdim : (Module.finrank (ZMod 2) (Q R.bitSize e T f) : ℤ) ≤ baseNum)
    (hor : (∀ j, j < R.bitSize → P (T (aeval T f (e j))) ∈ WS bases) ∨ (countBases bases : ℤ) ≥ baseNum) :
    WS bases = (Q R.bitSize e T f).map P := by
  have := Q_finite R.bitSize e T f
  rcases hor with hall | hcount
  · refine le_antisymm (WS_le hb) ?_
    rintro _ ⟨x, hx, rfl⟩
    obtain ⟨y, ⟨z, hz, rfl⟩, rfl⟩ := Q_onto h f hx
    have : M R.bitSize e ≤ (WS bases).comap (P ∘ₗ T ∘ₗ aeval T f) := by
      refine Submodule.span_le.2 ?_
      rintro _ ⟨j, rfl⟩
      exact hall j j.2
    exact this hz
  · refine Submodule.eq_of_le_of_finrank_le (WS_le hb) ?_
    have h1 := Submodule.finrank_map_le P (Q R.bitSize e T f)
    have h2 := count_eq hb
    omega

/-- Rank and nullity: the image of `f(T)` has at most `bitSize - deg f` dimensions as soon as `f` is irreducible and
annihilates something. -/
theorem finrank_Q (h : RedGen R Inv den T O e P) {f : (ZMod 2)[X]} (hf : Irreducible f)
    (hx : ∃ x ∈ M R.bitSize e, x ≠ 0 ∧ aeval T f x = 0) :
    Module.finrank (ZMod 2) (Q R.bitSize e T f) + f.natDegree ≤ R.bitSize := by
  have := M_finite R.bitSize e
  obtain ⟨x, hxM, hx0, hxf⟩ := hx
  have h1 := LinearMap.finrank_range_add_finrank_ker ((aeval T f).domRestrict (M R.bitSize e))
  have h2 : LinearMap.range ((aeval T f).domRestrict (M R.bitSize e)) = Q R.bitSize e T f := by
    unfold Q; rw [LinearMap.domRestrict, LinearMap.range_comp, Submodule.range_subtype]
  have h3 : Module.finrank (ZMod 2) (M R.bitSize e) = R.bitSize := by
    unfold M; rw [finrank_span_eq_card h.indep, Fintype.card_fin]
  rw [h2, h3] at h1
  -- the vectors `p(T) x`, `deg p < deg f`, are in the kernel
  let F : degreeLT (ZMod 2) f.natDegree →ₗ[ZMod 2] LinearMap.ker ((aeval T f).domRestrict (M R.bitSize e)) :=
    { toFun := fun p => ⟨⟨aeval T p.1 x, aeval_M h p.1 hxM⟩, by
        rw [LinearMap.mem_ker, LinearMap.domRestrict_apply]
        show aeval T f (aeval T p.1 x) = 0
        rw [← Module.End.mul_apply, ← map_mul, mul_comm, map_mul, Module.End.mul_apply, hxf, map_zero]⟩
      map_add' := fun p q => by
        apply Subtype.ext; apply Subtype.ext
        show aeval T (p.1 + q.1) x = aeval T p.1 x + aeval T q.1 x
        rw [map_add, LinearMap.add_apply]
      map_smul' := fun c p => by
        apply Subtype.ext; apply Subtype.ext
        show aeval T (c • p.1) x = c • aeval T p.1 x
        rw [map_smul, LinearMap.smul_apply] }
  have hF : Function.Injective F := by
    rw [← LinearMap.ker_eq_bot, LinearMap.ker_eq_bot']
    intro p hp
    by_contra hne
    have hp0 : p.1 ≠ 0 := fun h => hne (Subtype.ext h)
    have hpx : aeval T p.1 x = 0 := congrArg (fun z => z.1.1) hp
    have hdeg : p.1.natDegree < f.natDegree := by
      rw [natDegree_lt_iff_degree_lt hp0]
      exact mem_degreeLT.1 p.2
    have hcop : IsCoprime f p.1 := by
      refine (hf.coprime_iff_not_dvd).2 fun hd => ?_
      have := natDegree_le_of_dvd hd hp0
      omega
    obtain ⟨a, b, hab⟩ := hcop
    apply hx0
    have h4 : aeval T (a * f + b * p.1) x = x := by rw [hab, map_one]; rfl
    rw [← h4, map_add, map_mul, map_mul, LinearMap.add_apply, Module.End.mul_apply, Module.End.mul_apply, hxf, hpx,
      map_zero, map_zero, add_zero]
  have h5 := LinearMap.finrank_le_finrank_of_injective hF
  have h6 : Module.finrank (ZMod 2) (degreeLT (ZMod 2) f.natDegree) = f.natDegree := by
    rw [(degreeLTEquiv (ZMod 2) f.natDegree).finrank_eq, Module.finrank_fintype_fun_eq_card, Fintype.card_fin]
  omega

end MTT.Parity
