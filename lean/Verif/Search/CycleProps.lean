import Verif.Search.Orbit
import Verif.Search.RTProps
import Verif.PIS.Props

/-!
# C118: what a successful search means for the states of the generator

If `AlgorithmRecursionSearch::start` returns true, the states with the parameters found that are not zero form one cycle:
their outputs are one stream, entered at different places, and the measured equidistribution is the same from all of them.
The lowest bits of `bitSize()` consecutive outputs determine the state.
-/

namespace MTT.Search

open Polynomial PIS

variable {σ π P S : Type} {w : ℕ} [AddCommGroup S] [Module (ZMod 2) S]
  [Module.Finite (ZMod 2) S] {D : SearchOps σ π w} {Inv : σ → Prop} {par : σ → P} {den : σ → S}
  {T : P → S →ₗ[ZMod 2] S} {O : P → S →ₗ[ZMod 2] V} {mps : MPS}
  {prim : ℕ → (ZMod 2)[X] → Option Bool}

/-- The parameters that a search accepts: a primitive characteristic polynomial and a lowest bit that is not always zero. -/
theorem accepted (hm : MinPolySeqSpec mps) (F : Family D Inv par den T O) (hprim : PrimOK prim D.gen.bitSize) (n : ℕ)
    (st st' : St σ π) (hinv : Inv st.rand) (hret : start mps D prim n st = .ret true st') :
    Primitive2 (T (par st'.rand)).charpoly D.gen.bitSize ∧ coord w 0 (O (par st'.rand)) ≠ 0 := by
  obtain ⟨-, h2, h3⟩ := start_max_period hm F hprim n st st' hinv hret
  refine ⟨h2 ▸ h3, fun h0 => ?_⟩
  rcases start_bookkeeping hm F hprim n st hinv with ⟨m, st1, a, -, -, g3, g4, -, g6⟩ | ⟨b, -, g3, -⟩ | ⟨m, b, -, -, -, g4, -⟩
  · rw [g4] at hret
    injection hret with _ e
    subst e
    rcases tryOnce_correct hm F hprim st1 g6 with ⟨-, k2⟩ | ⟨r, src, st2, b, k1, k2, -, -, -, -, k6, k7, -⟩
    · rw [k2] at g3; cases g3
    · rw [k2] at g3
      injection g3 with e1 e2
      subst e1 e2
      obtain ⟨-, i, hi⟩ := k7.1 rfl
      have hr := F.setUp_inv _ _ _ _ g6 k1
      have := congrFun (bitAt_eq (F.lin (par r)) (s := D.seedOne r) ⟨F.seed_inv r hr, F.seed_par r hr⟩ F.wpos) i
      rw [← k6] at this
      change (if (outAt D.gen (D.seedOne r) i).getLsbD 0 then (1 : ZMod 2) else 0) = coord w 0 (O (par st2.rand)) _ at this
      rw [hi, h0] at this
      simp at this
  · rw [g3] at hret; cases hret
  · rw [g4] at hret; cases hret

section

variable (hm : MinPolySeqSpec mps) (F : Family D Inv par den T O) (hprim : PrimOK prim D.gen.bitSize) (n : ℕ)
  (st st' : St σ π) (hinv : Inv st.rand) (hret : start mps D prim n st = .ret true st')

include hm F hprim hinv hret

/-- **C118.**  All states that are not zero lie on one cycle: from each of them each of them is reached by exactly one
number of steps less than `2^n - 1`. -/
theorem one_cycle {s t : σ} (hs : Inv s) (hsp : par s = par st'.rand) (hs0 : den s ≠ 0)
    (ht0 : den t ≠ 0) :
    ∃! k, k < 2 ^ D.gen.bitSize - 1 ∧ den (stateAt D.gen s k) = den t := by
  obtain ⟨hp, -⟩ := accepted hm F hprim n st st' hinv hret
  have hper := fun k => period_of_primitive F.pos hp (charpoly_hyps (T (par st'.rand)) (den s)).2.1 hs0 k
  have hst := fun k => (stateAt_spec (F.lin (par st'.rand)) (g := s) ⟨hs, hsp⟩ k).2
  have hpos := one_le_two_pow_sub F.pos
  obtain ⟨k, -, hk⟩ := orbit_all F.pos F.dim hs0 hper ht0
  have hmod : ∀ k, ((T (par st'.rand)) ^ (k % (2 ^ D.gen.bitSize - 1))) (den s) = ((T (par st'.rand)) ^ k) (den s) := fun k => by
    conv_rhs => rw [← Nat.mod_add_div k (2 ^ D.gen.bitSize - 1), pow_add, Module.End.mul_apply,
      (hper _).2 (Dvd.intro _ rfl)]
  refine ⟨k % (2 ^ D.gen.bitSize - 1), ⟨Nat.mod_lt _ (by omega), by rw [hst, hmod, hk]⟩, ?_⟩
  rintro j ⟨hj1, hj2⟩
  have hi1 := Nat.mod_lt k (show 0 < 2 ^ D.gen.bitSize - 1 by omega)
  set i := k % (2 ^ D.gen.bitSize - 1) with hi
  have hij : ((T (par st'.rand)) ^ j) (den s) = ((T (par st'.rand)) ^ i) (den s) := by rw [← hst, hj2, hmod, hk]
  have key : ∀ a b, a < b → b < 2 ^ D.gen.bitSize - 1 → ((T (par st'.rand)) ^ a) (den s) ≠ ((T (par st'.rand)) ^ b) (den s) := by
    intro a b hab hb e
    have h1 := congrArg (fun u => ((T (par st'.rand)) ^ (2 ^ D.gen.bitSize - 1 - b)) u) e
    rw [← Module.End.mul_apply, ← Module.End.mul_apply, ← pow_add, ← pow_add, Nat.sub_add_cancel hb.le, (hper _).2 dvd_rfl, hper] at h1
    have := Nat.le_of_dvd (by omega) h1
    omega
  rcases lt_trichotomy j i with h | h | h
  · exact absurd hij (key j i h hi1)
  · exact h
  · exact absurd hij.symm (key i j h hj1)

/-- **C118.**  The outputs from any two states that are not zero are one stream, entered at different places. -/
theorem one_stream {s t : σ} (hs : Inv s) (hsp : par s = par st'.rand) (hs0 : den s ≠ 0) (ht : Inv t)
    (htp : par t = par st'.rand) (ht0 : den t ≠ 0) :
    ∃ k < 2 ^ D.gen.bitSize - 1, ∀ j, outAt D.gen s (k + j) = outAt D.gen t j := by
  obtain ⟨k, ⟨hk1, hk2⟩, -⟩ := one_cycle hm F hprim n st st' hinv hret hs hsp hs0 ht0
  refine ⟨k, hk1, fun j => bits_inj ?_⟩
  have hL := F.lin (par st'.rand)
  rw [outAt_spec hL ⟨hs, hsp⟩, outAt_spec hL ⟨ht, htp⟩, add_comm, pow_add, Module.End.mul_apply, ← (stateAt_spec hL ⟨hs, hsp⟩ k).2, hk2]

/-- **C118.**  The lowest bits of the first `bitSize()` outputs determine the state. -/
theorem low_bits {s t : σ} (hs : Inv s) (hsp : par s = par st'.rand) (ht : Inv t) (htp : par t = par st'.rand) :
    (∀ j < D.gen.bitSize, (outAt D.gen s j).getLsbD 0 = (outAt D.gen t j).getLsbD 0) ↔ den s = den t := by
  obtain ⟨hp, hc⟩ := accepted hm F hprim n st st' hinv hret
  have hL := F.lin (par st'.rand)
  constructor
  · intro h
    by_contra hne
    have hu : den s - den t ≠ 0 := sub_ne_zero.2 hne
    obtain ⟨g1, g2, g3⟩ := charpoly_hyps (T (par st'.rand)) (den s - den t)
    have hA := ann_outSeq (T (par st'.rand)) (coord w 0 (O (par st'.rand))) g2
    have hz : outSeq (T (par st'.rand)) (coord w 0 (O (par st'.rand))) (den s - den t) = 0 := by
      refine eq_zero_of_start g1.ne_zero hA fun i hi => ?_
      rw [g3, F.dim] at hi
      rw [map_sub, ← bitAt_eq hL ⟨hs, hsp⟩ F.wpos, ← bitAt_eq hL ⟨ht, htp⟩ F.wpos, Pi.sub_apply]
      unfold bitAt
      rw [h i hi, sub_self]
    have htop : cyc (T (par st'.rand)) (den s - den t) = ⊤ :=
      cyc_top F.pos F.dim hu (fun k => period_of_primitive F.pos hp g2 hu k)
    refine hc (LinearMap.ext fun x => ?_)
    have hx : x ∈ cyc (T (par st'.rand)) (den s - den t) := htop ▸ Submodule.mem_top
    have hle : cyc (T (par st'.rand)) (den s - den t) ≤ LinearMap.ker (coord w 0 (O (par st'.rand))) := by
      refine Submodule.span_le.2 ?_
      rintro _ ⟨j, rfl⟩
      exact congrFun hz j
    exact hle hx
  · intro h j _
    have : outAt D.gen s j = outAt D.gen t j := bits_inj (by rw [outAt_spec hL ⟨hs, hsp⟩, outAt_spec hL ⟨ht, htp⟩, h])
    rw [this]

/-- **C118.**  `get_all_equidist` gives the same table and the same sum from all states that are not zero. -/
theorem same_measure {s t : σ} (hs : Inv s) (hsp : par s = par st'.rand) (hs0 : den s ≠ 0) (ht : Inv t)
    (htp : par t = par st'.rand) (ht0 : den t ≠ 0) {calc1pos : BitVec w → Int} (hc : IsCalc1pos calc1pos) {bitLen : ℕ}
    (h1 : 1 ≤ bitLen) (h2 : bitLen ≤ w) {fuel : ℕ} (hfuel : bitLen * ((bitLen + 1) * D.gen.bitSize) + bitLen + 1 ≤ fuel)
    (veq0 : ℕ → ℕ) :
    ∃ r, getAllEquidist D.gen calc1pos s bitLen D.gen.bitSize fuel veq0 = .ok r ∧
      getAllEquidist D.gen calc1pos t bitLen D.gen.bitSize fuel veq0 = .ok r ∧
      ∀ v, 1 ≤ v → v ≤ bitLen → IsGreatest {k | Equidist (T (par st'.rand)) (O (par st'.rand)) ⊤ v k} (r.veq (v - 1)) := by
  obtain ⟨hp, -⟩ := accepted hm F hprim n st st' hinv hret
  have hL := F.lin (par st'.rand)
  have run : ∀ u, Inv u → par u = par st'.rand → den u ≠ 0 → ∃ r, getAllEquidist D.gen calc1pos u bitLen D.gen.bitSize fuel veq0 = .ok r ∧
      (∀ v, 1 ≤ v → v ≤ bitLen → IsGreatest {k | Equidist (T (par st'.rand)) (O (par st'.rand)) ⊤ v k} (r.veq (v - 1))) ∧
      (∀ j, bitLen ≤ j → r.veq j = veq0 j) ∧
      r.sum = ∑ v ∈ Finset.Icc 1 bitLen, ((D.gen.bitSize / v : ℕ) - (r.veq (v - 1) : ℤ)) := by
    intro u hu hup hu0
    obtain ⟨g1, g2, g3⟩ := charpoly_hyps (T (par st'.rand)) (den u)
    rw [F.dim] at g3
    have htop : cyc (T (par st'.rand)) (den u) = ⊤ := cyc_top F.pos F.dim hu0 (fun k => period_of_primitive F.pos hp g2 hu0 k)
    have := getAllEquidist_correct hL (g := u) ⟨hu, hup⟩ g1 g2 (by omega) g3.le hc h1 h2 (fuel := fuel) (by rw [g3]; exact hfuel) veq0
    rwa [htop] at this
  obtain ⟨r, a1, a2, a3, a4⟩ := run s hs hsp hs0
  obtain ⟨r', b1, b2, b3, b4⟩ := run t ht htp ht0
  have hv : r.veq = r'.veq := by
    funext j
    by_cases hj : bitLen ≤ j
    · rw [a3 j hj, b3 j hj]
    · exact (a2 (j + 1) (by omega) (by omega)).unique (b2 (j + 1) (by omega) (by omega))
  have hr : r = r' := by
    obtain ⟨x, y⟩ := r
    obtain ⟨x', y'⟩ := r'
    simp only at hv a4 b4
    subst hv
    rw [a4, b4]
  exact ⟨r, a1, hr ▸ b1, a2⟩

end

end MTT.Search
