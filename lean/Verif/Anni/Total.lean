import Verif.Anni.Props
import Verif.Parity.Props

/-!
# C49: `searchParity` ends normally
-/

namespace MTT.Parity

open Polynomial PIS Anni

variable {σ S : Type} {w : ℕ} [AddCommGroup S] [Module (ZMod 2) S]
  {R : ROps σ w} {W : WordOps w} {Inv : σ → Prop} {den : σ → S} {T : S →ₗ[ZMod 2] S} {O : S →ₗ[ZMod 2] V}
  {e : ℕ → S} {P : S →ₗ[ZMod 2] V}

/-- `bitSize` certified words are enough to tell a state from zero. -/
theorem obs_bound (h : RedGen R Inv den T O e P) (hobs : ObsP w R.bitSize e T P) {x : S} (hx : x ∈ M R.bitSize e)
    (h0 : ∀ i < R.bitSize, ∀ j < w, P ((T ^ (i + 1)) x) j = 0) : x = 0 := by
  have := M_finite R.bitSize e
  have hc := LinearMap.charpoly_monic (T.restrict h.closed)
  refine hobs x hx fun i j hj => ?_
  let c : S →ₗ[ZMod 2] ZMod 2 := ((LinearMap.proj (R := ZMod 2) (φ := fun _ : ℕ => ZMod 2) j).comp P).comp T
  have hann : Ann (T.restrict h.closed).charpoly (outSeq T c x) := by
    rw [← outSeq_restrict h.closed c ⟨x, hx⟩]
    exact ann_charpoly _ _
  have hz := eq_zero_of_start hc.ne_zero hann (fun i hi => by
    rw [LinearMap.charpoly_natDegree, finrank_M h] at hi
    have := h0 i hi j hj
    rw [pow_succ', Module.End.mul_apply] at this
    exact this)
  have := congrFun hz i
  rw [pow_succ', Module.End.mul_apply]
  exact this

/-- **C49.**  `searchParity` ends normally on every reducible generator whose certified words tell the states apart, if
the small part has less than `w` dimensions: it returns a vector, raises no exception and accesses no array out of range.
The loop of `set_state` runs at most `bitSize() + 1` times. -/
theorem searchParity_returns (h : RedGen R Inv den T O e P) (hW : WordsOK W) {kernel : KernelFn}
    (hK : KernelSpec kernel) (hobs : ObsP w R.bitSize e T P) {f : (ZMod 2)[X]} (hf : Irreducible f)
    (hdeg : f.natDegree = R.mexp) (hx : ∃ x ∈ M R.bitSize e, x ≠ 0 ∧ aeval T f x = 0)
    (hbase : R.bitSize - R.mexp < w) {fuel : ℕ} (hfuel : R.bitSize < fuel) (junk : BitVec w) {g : σ} (hg : Inv g) :
    ∃ parity, searchParity R W fuel kernel junk g f = .ok (parity, R.setParity parity g) := by
  refine searchParity_bounded h hW hK hf hdeg hx hbase (N := R.bitSize) (fun x hxQ hx0 => ?_) hfuel junk hg
  by_contra hcon
  push Not at hcon
  refine hx0 (obs_bound h hobs (Q_le h f hxQ) fun i hi j _ => ?_)
  rw [hcon (i + 1) (by omega)]; rfl

end MTT.Parity
