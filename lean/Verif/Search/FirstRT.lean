import Verif.Search.First
import Verif.Search.RTProps

/-!
# `AlgorithmRecursionAndTempering::search` and the sequence of the parameter source

Lemmas for C119: the loop that repeats `start(1000 * mexp)` stops at the first parameter set of the source that qualifies,
however many calls of `start` this takes.
-/

namespace MTT.Search

open Polynomial PIS

variable {σ α P S : Type} {w : ℕ} [AddCommGroup S] [Module (ZMod 2) S]
  [Module.Finite (ZMod 2) S] {D : SearchOps σ (ℕ → α) w} {Inv K : σ → Prop} {par : σ → P} {den : σ → S}
  {T : P → S →ₗ[ZMod 2] S} {O : P → S →ₗ[ZMod 2] V} {mps : MPS}
  {prim : ℕ → (ZMod 2)[X] → Option Bool} {c : ℕ} {cand : (ℕ → α) → P}

theorem findLoop_first (hm : MinPolySeqSpec mps) (F : Family D Inv par den T O) (hprim : PrimOK prim D.gen.bitSize)
    (hD : Draws D Inv Inv K par c cand) (tries fuel : ℕ) (st : St σ (ℕ → α)) (hinv : Inv st.rand) (hK : K st.rand) :
    (∀ m < fuel * tries, Qualifies D Inv par den (cand (from_ st.src (c * m))) →
      (∀ i < m, ¬ Qualifies D Inv par den (cand (from_ st.src (c * i)))) →
      ∃ st', findLoop mps D prim tries fuel st = some (.ret true st') ∧ par st'.rand = cand (from_ st.src (c * m)) ∧
        st'.src = from_ st.src (c * (m + 1)) ∧ K st'.rand) ∧
    ((∀ i < fuel * tries, ¬ Qualifies D Inv par den (cand (from_ st.src (c * i)))) →
      findLoop mps D prim tries fuel st = none) := by
  induction fuel generalizing st with
  | zero => exact ⟨fun m h => absurd h (by omega), fun _ => rfl⟩
  | succ fuel ih =>
    obtain ⟨h1, h2⟩ := start_first hm F hprim hD st hinv hK tries
    have hmul : (fuel + 1) * tries = tries + fuel * tries := by rw [Nat.succ_mul, Nat.add_comm]
    have hsh : ∀ i, from_ (from_ st.src (c * tries)) (c * i) = from_ st.src (c * (tries + i)) := fun i => by
      rw [from_from, Nat.mul_add]
    constructor
    · intro m hlt hA hno
      by_cases hmt : m < tries
      · obtain ⟨st', j1, j2, -, j4, -, j6⟩ := h1 m hmt hA hno
        exact ⟨st', by rw [findLoop, j1], j2, j4, j6⟩
      · obtain ⟨st1, j1, -, j3, j4, j5⟩ := h2 fun i hi => hno i (by omega)
        obtain ⟨k, rfl⟩ : ∃ k, m = tries + k := ⟨m - tries, by omega⟩
        obtain ⟨st', e1, e2, e3, e4⟩ := (ih st1 j4 j5).1 k (by omega) (by rw [j3, hsh]; exact hA) fun i hi => by
          rw [j3, hsh]
          exact hno _ (by omega)
        rw [j3, hsh] at e2 e3
        exact ⟨st', by rw [findLoop, j1]; exact e1, e2, e3, e4⟩
    · intro hno
      obtain ⟨st1, j1, -, j3, j4, j5⟩ := h2 fun i hi => hno i (by omega)
      rw [findLoop, j1]
      exact (ih st1 j4 j5).2 fun i hi => by
        rw [j3, hsh]
        exact hno _ (by omega)

end MTT.Search
