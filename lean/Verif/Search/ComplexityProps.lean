import Verif.Search.CycleProps
import Verif.MT.Complexity

/-!
# C134: after a successful search every output bit has the polynomial found

If `AlgorithmRecursionSearch::start` returns true, the polynomial that `getMinPoly` returns is the minimal polynomial of every XOR of chosen
output bits, from every state that is not zero, unless this XOR is always zero; `minpoly` (period.hpp:55-75) delivers it for every bit.
Nothing new is modelled.
-/

namespace MTT.Search

open Polynomial PIS Finset MT

variable {σ π P S : Type} {w : ℕ} [AddCommGroup S] [Module (ZMod 2) S]
  [Module.Finite (ZMod 2) S] {D : SearchOps σ π w} {Inv : σ → Prop} {par : σ → P} {den : σ → S}
  {T : P → S →ₗ[ZMod 2] S} {O : P → S →ₗ[ZMod 2] V} {mps : MPS}
  {prim : ℕ → (ZMod 2)[X] → Option Bool}

/-- The XOR of the output bits under a mask as a function of the state. -/
noncomputable def maskLin (c : BitVec w) (O : S →ₗ[ZMod 2] V) : S →ₗ[ZMod 2] ZMod 2 :=
  ∑ i ∈ range w, if c.getLsbD i then coord w i O else 0

omit [Module.Finite (ZMod 2) S] in
theorem maskBit_outAt {G : GenOps σ w} {I : σ → Prop} {T : S →ₗ[ZMod 2] S} {O : S →ₗ[ZMod 2] V} (h : LinGen G I den T O) {s : σ} (hs : I s)
    (c : BitVec w) (k : ℕ) : maskBit c (outAt G s k) = maskLin c O ((T ^ k) (den s)) := by
  unfold maskBit maskLin
  rw [LinearMap.sum_apply]
  refine sum_congr rfl fun i hi => ?_
  have := congrFun (bitAt_eq h hs (mem_range.1 hi)) k
  change (if (outAt G s k).getLsbD i then (1 : ZMod 2) else 0) = coord w i O ((T ^ k) (den s)) at this
  rw [BitVec.getLsbD_and]
  cases c.getLsbD i
  · simp
  · simpa using this

section

variable (hm : MinPolySeqSpec mps) (F : Family D Inv par den T O) (hprim : PrimOK prim D.gen.bitSize) (n : ℕ)
  (st st' : St σ π) (hinv : Inv st.rand) (hret : start mps D prim n st = .ret true st')

include hm F hprim hinv hret

/-- **C134.**  The XOR of chosen output bits is always zero, from every state, or has the polynomial found as its minimal polynomial, from
every state that is not zero. -/
theorem mask_minpoly (c : BitVec w) :
    (∀ s, Inv s → par s = par st'.rand → ∀ k, maskBit c (outAt D.gen s k) = 0) ∨
    ∀ s, Inv s → par s = par st'.rand → den s ≠ 0 → IsSeqMinpoly st'.poly fun k => maskBit c (outAt D.gen s k) := by
  obtain ⟨-, e, hp⟩ := start_max_period hm F hprim n st st' hinv hret
  have hL := F.lin (par st'.rand)
  have hp' : Primitive2 (T (par st'.rand)).charpoly D.gen.bitSize := e ▸ hp
  by_cases h0 : maskLin c (O (par st'.rand)) = 0
  · left
    intro s hs hsp k
    rw [maskBit_outAt hL ⟨hs, hsp⟩, h0]; rfl
  · right
    intro s hs hsp hs0
    have hT := (charpoly_hyps (T (par st'.rand)) (den s)).2.1
    obtain ⟨k, hk⟩ : ∃ k, maskLin c (O (par st'.rand)) ((T (par st'.rand) ^ k) (den s)) ≠ 0 := by
      by_contra hc
      push Not at hc
      refine h0 (LinearMap.ext fun y => ?_)
      by_cases hy : y = 0
      · rw [hy, map_zero, map_zero]
      · obtain ⟨k, -, rfl⟩ := orbit_all F.pos F.dim hs0 (fun k => period_of_primitive F.pos hp' hT hs0 k) hy
        exact hc k
    simp only [maskBit_outAt hL ⟨hs, hsp⟩]
    rw [e]
    exact isSeqMinpoly_of (Primitive2.irreducible F.pos hp') (ann_obs _ hT) hk

/-- **C134.**  `minpoly` on output bit `pos`: the polynomial found, from every state that is not zero, unless the bit is always zero, when it
delivers 1 from every state. -/
theorem bit_minpoly {pos : ℕ} (hpos : pos < w) :
    (∀ s, Inv s → par s = par st'.rand → (∀ k, (outAt D.gen s k).getLsbD pos = false) ∧
      minpoly mps D.gen pos 0 s = some (stateAt D.gen s (2 * D.gen.bitSize), 1)) ∨
    ∀ s, Inv s → par s = par st'.rand → den s ≠ 0 →
      minpoly mps D.gen pos 0 s = some (stateAt D.gen s (2 * D.gen.bitSize), st'.poly) := by
  have hL := F.lin (par st'.rand)
  have eq : ∀ s k, maskBit (BitVec.twoPow w pos) (outAt D.gen s k) = bitAt D.gen s pos k := by
    intro s k
    unfold maskBit
    rw [sum_eq_single pos]
    · rw [BitVec.getLsbD_and, BitVec.getLsbD_twoPow]
      simp [hpos, bitAt]
    · intro j _ hj
      rw [BitVec.getLsbD_and, BitVec.getLsbD_twoPow]
      simp [Ne.symm hj]
    · intro h; exact absurd (mem_range.2 hpos) h
  have run := fun s (hs : Inv s) (hsp : par s = par st'.rand) => minpoly_dim hm hL (s := s) ⟨hs, hsp⟩ (pos := pos) hpos F.dim.le
  rcases mask_minpoly hm F hprim n st st' hinv hret (BitVec.twoPow w pos) with h | h
  · left
    intro s hs hsp
    have hz : bitAt D.gen s pos = 0 := funext fun k => (eq s k).symm.trans (h s hs hsp k)
    refine ⟨fun k => ?_, ?_⟩
    · have := congrFun hz k
      unfold bitAt at this
      simpa using this
    · obtain ⟨p, e1, e2⟩ := run s hs hsp
      rw [hz] at e2
      have h1 : IsSeqMinpoly 1 (0 : BitSeq) := ⟨one_ne_zero, fun i => by simp, fun q _ => one_dvd q⟩
      rw [e1, e2.unique h1]
  · right
    intro s hs hsp hs0
    obtain ⟨p, e1, e2⟩ := run s hs hsp
    have h3 := h s hs hsp hs0
    simp only [eq] at h3
    rw [e1, e2.unique h3]

/-- **C134.**  The lowest bit, which the search looks at, is in the second case. -/
theorem low_minpoly {s : σ} (hs : Inv s) (hsp : par s = par st'.rand) (hs0 : den s ≠ 0) :
    minpoly mps D.gen 0 0 s = some (stateAt D.gen s (2 * D.gen.bitSize), st'.poly) := by
  rcases bit_minpoly hm F hprim n st st' hinv hret F.wpos with h | h
  · exfalso
    obtain ⟨hp, hc⟩ := accepted hm F hprim n st st' hinv hret
    have hT := (charpoly_hyps (T (par st'.rand)) (den s)).2.1
    refine hc (LinearMap.ext fun y => ?_)
    by_cases hy : y = 0
    · rw [hy, map_zero, map_zero]
    · obtain ⟨k, -, rfl⟩ := orbit_all F.pos F.dim hs0 (fun k => period_of_primitive F.pos hp hT hs0 k) hy
      have := congrFun (bitAt_eq (F.lin (par st'.rand)) (s := s) ⟨hs, hsp⟩ F.wpos) k
      unfold bitAt at this
      rw [(h s hs hsp).1 k] at this
      exact this.symm
  · exact h s hs hsp hs0

end

end MTT.Search
