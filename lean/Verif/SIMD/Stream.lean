import Verif.PIS.Result

/-!
# Equidistribution of a stream of small words produced in blocks (specification)

A generator that produces blocks of `E` words: `x k s` is word number `k` of the stream of the state `s` (its bits,
most significant first), and the transition `T` moves on by one block.  `Eqd v j k`: the `k` consecutive words from
number `j` on, truncated to `v` bits, take every value on the space `C`.
-/

namespace MTT.SIMD

open PIS Polynomial

variable {S : Type} [AddCommGroup S] [Module (ZMod 2) S]

/-- The words `j, …, j + k - 1` are equidistributed with `v`-bit accuracy. -/
def Eqd (x : ℕ → S →ₗ[ZMod 2] V) (C : Submodule (ZMod 2) S) (v j k : ℕ) : Prop :=
  ∀ a : ℕ → V, ∃ s ∈ C, ∀ i < k, ∀ b < v, x (j + i) s b = a i b

/-- Equidistributed at every position of the stream. -/
def EqdAll (x : ℕ → S →ₗ[ZMod 2] V) (C : Submodule (ZMod 2) S) (v k : ℕ) : Prop := ∀ j, Eqd x C v j k

variable {x : ℕ → S →ₗ[ZMod 2] V} {C : Submodule (ZMod 2) S} {T : S →ₗ[ZMod 2] S} {E v j k : ℕ}

theorem Eqd.mono (h : Eqd x C v j k) {k' : ℕ} (hk : k' ≤ k) : Eqd x C v j k' := fun a => by
  obtain ⟨s, hs, e⟩ := h a
  exact ⟨s, hs, fun i hi => e i (by omega)⟩

theorem Eqd.drop {d : ℕ} (h : Eqd x C v j (d + k)) : Eqd x C v (j + d) k := fun a => by
  obtain ⟨s, hs, e⟩ := h fun i => a (i - d)
  refine ⟨s, hs, fun i hi b hb => ?_⟩
  have := e (d + i) (by omega) b hb
  rw [show d + i - d = i by omega] at this
  rw [add_assoc]
  exact this

theorem eqd_zero : Eqd x C v j 0 := fun _ => ⟨0, Submodule.zero_mem _, fun i hi => by omega⟩

/-- The blocks: `T` moves the stream by `E` words. -/
structure Blocks (x : ℕ → S →ₗ[ZMod 2] V) (C : Submodule (ZMod 2) S) (T : S →ₗ[ZMod 2] S) (E : ℕ) : Prop where
  shift : ∀ k s, x (k + E) s = x k (T s)
  stable : ∀ s ∈ C, T s ∈ C
  onto : ∀ s ∈ C, ∃ r ∈ C, T r = s

theorem Blocks.eqd_add (H : Blocks x C T E) : Eqd x C v (j + E) k ↔ Eqd x C v j k := by
  constructor
  · intro h a
    obtain ⟨s, hs, e⟩ := h a
    refine ⟨T s, H.stable s hs, fun i hi b hb => ?_⟩
    rw [← H.shift, ← e i hi b hb, show j + i + E = j + E + i by omega]
  · intro h a
    obtain ⟨s, hs, e⟩ := h a
    obtain ⟨r, hr, rfl⟩ := H.onto s hs
    refine ⟨r, hr, fun i hi b hb => ?_⟩
    rw [← e i hi b hb, ← H.shift, show j + i + E = j + E + i by omega]

theorem Blocks.eqd_mul (H : Blocks x C T E) (q : ℕ) : Eqd x C v (j + E * q) k ↔ Eqd x C v j k := by
  induction q with
  | zero => rw [Nat.mul_zero, Nat.add_zero]
  | succ q ih => rw [Nat.mul_succ, ← Nat.add_assoc, H.eqd_add, ih]

/-- Only the positions in one block matter. -/
theorem Blocks.eqdAll_iff (H : Blocks x C T E) (hE : 0 < E) : EqdAll x C v k ↔ ∀ j < E, Eqd x C v j k := by
  constructor
  · exact fun h j _ => h j
  · intro h j
    rw [← Nat.mod_add_div j E, H.eqd_mul]
    exact h _ (Nat.mod_lt _ hE)

/-- What follows from the numbers `K` of whole blocks that are equidistributed at the positions after `j`: the words
before the end of the first block are dropped. -/
theorem Blocks.lower (H : Blocks x C T E) {w K r : ℕ} (hw : w ≤ E) (hK : Eqd x C v (j + w) (E * K))
    (hr : r + (E - w) ≤ E * K) : Eqd x C v j r := by
  rw [← H.eqd_add]
  have := (hK.mono (k' := (E - w) + r) (by omega)).drop
  rwa [show j + w + (E - w) = j + E by omega] at this

/-- The number of bits is at most the dimension. -/
theorem eqd_bound [Module.Finite (ZMod 2) C] (h : Eqd x C v j k) : k * v ≤ Module.finrank (ZMod 2) C := by
  let f : C →ₗ[ZMod 2] (Fin k × Fin v → ZMod 2) :=
    { toFun := fun s q => x (j + q.1) s q.2
      map_add' := fun s t => by funext q; simp
      map_smul' := fun c s => by funext q; simp }
  have hf : Function.Surjective f := by
    intro a
    obtain ⟨s, hs, e⟩ := h fun i b => if hi : i < k then if hb : b < v then a (⟨i, hi⟩, ⟨b, hb⟩) else 0 else 0
    refine ⟨⟨s, hs⟩, ?_⟩
    funext q
    have := e q.1 q.1.2 q.2 q.2.2
    rw [dif_pos q.1.2, dif_pos q.2.2] at this
    exact this
  have := LinearMap.finrank_le_finrank_of_surjective hf
  rwa [Module.finrank_fintype_fun_eq_card, Fintype.card_prod, Fintype.card_fin, Fintype.card_fin] at this

end MTT.SIMD
