import Verif.Samples.RMTDCGood

/-!
# C88: the search program of the RMT sample, `rmt64dc.cpp`
-/

namespace MTT.RMT

open Polynomial PIS Search Temper Parity Text

variable {mexp : ℕ} {mps : MPS} {kernel : KernelFn} {one : ℕ → Option (BitVec 64)}

theorem allowed_ge : ∀ e ∈ allowedMexp, 65 ≤ e ∧ e % 64 ≠ 0 ∧ e ≤ 216091 := by decide

theorem allowed_prime (h : mexp ∈ allowedMexp) : (2 ^ mexp - 1).Prime := by
  have h1 : ∀ e ∈ allowedMexp, e ∈ Period.mersenneExponent := by decide +kernel
  exact Mexp.table_prime mexp (h1 mexp h) (allowed_ge mexp h).2.2

/-- One call of `all.search`. -/
theorem allSearch_correct (hm : MinPolySeqSpec mps) (hK : KernelSpec kernel) (hmexp : mexp ∈ allowedMexp) (junk : BitVec 64)
    (veq : ℕ → ℕ) (fuel : ℕ) {g : St} (hg : SInv mexp { g with pos := 0 }) (src : ℕ → BitVec 64) {r : SRes}
    (h : allSearch mps kernel one junk veq fuel mexp g src = some r) :
    ((r = .shift ∧ ∃ k < 64, one k = none) ∨ ∃ t src' d, r = .found t src' d ∧ SInv mexp t ∧ GoodLine mexp ⟨fieldsOf t, d⟩) ∧
    (one = intOneShift → mexp + 33 ≤ (mexp / 64 + 1) * 64 → r = .shift) := by
  obtain ⟨h65, hmod, -⟩ := allowed_ge mexp hmexp
  have hprime := allowed_prime hmexp
  unfold allSearch at h
  dsimp only at h
  cases hf : rFindLoop mps (searchOps mexp) mexp (1000 * ((mexp / 64 + 1) * 64)) fuel ⟨g, src, 0, 0, 0⟩ with
  | none => rw [hf] at h; cases h
  | some q =>
    rw [hf] at h
    obtain ⟨tries, htr⟩ : ∃ tries, 1000 * ((mexp / 64 + 1) * 64) = tries + 1 := ⟨1000 * ((mexp / 64 + 1) * 64) - 1, by omega⟩
    rw [htr] at hf
    obtain ⟨st, rfl, hst⟩ := rFind_spec hm (by omega) tries fuel src hg hf
    dsimp only at h
    obtain ⟨hp1, hp2⟩ := searchParity_ends (one := one) hK hmod junk hst.inv.inv st.irreducible
    rcases hp1 with ⟨e, hn⟩ | ⟨v, e⟩
    · rw [e] at h
      dsimp only at h
      exact ⟨.inl ⟨(Option.some.inj h).symm, hn⟩, fun _ _ => (Option.some.inj h).symm⟩
    · rw [e] at h
      dsimp only at h
      have hs : SInv mexp (setParityValue v st.rand) :=
        ⟨⟨hst.inv.inv.size, hst.inv.inv.index, hst.inv.inv.pos⟩, hst.inv.rev, hst.inv.mexp_eq⟩
      obtain ⟨t, d, e1, e2⟩ := after_spec hm veq hs h65 hst.irr hst.deg
      rw [e1] at h
      dsimp only at h
      refine ⟨.inr ⟨t, st.src, d, (Option.some.inj h).symm, e2.inv, good_of_found h65 hprime hst e2⟩, fun h1 h2 => ?_⟩
      rw [hp2 h1 h2] at e
      cases e

theorem getParamString_sinv {t : St} (h : SInv mexp t) : SInv mexp { getParamString t with pos := 0 } := by
  unfold getParamString
  exact ⟨⟨h.inv.size, h.inv.index, by show 0 < _; omega⟩, h.rev, h.mexp_eq⟩

theorem searchLines_correct (hm : MinPolySeqSpec mps) (hK : KernelSpec kernel) (hmexp : mexp ∈ allowedMexp)
    (junk : ℕ → BitVec 64) (veq : ℕ → ℕ) (fuel : ℕ) (c : ℕ) : ∀ (g : St) (src : ℕ → BitVec 64) (e : Ends),
    SInv mexp { g with pos := 0 } → searchLines mps kernel one junk veq fuel mexp c g src = some e →
    ((∃ L, e = .normal L ∧ L.length = c ∧ ∀ l ∈ L, GoodLine mexp l) ∨
      ∃ L, e = .shift L ∧ L.length < c ∧ (∃ r < 64, one r = none) ∧ ∀ l ∈ L, GoodLine mexp l) ∧
    (one = intOneShift → mexp + 33 ≤ (mexp / 64 + 1) * 64 → 1 ≤ c → e = .shift []) := by
  induction c with
  | zero =>
    intro g src e _ h
    exact ⟨.inl ⟨[], (Option.some.inj h).symm, rfl, by simp⟩, fun _ _ h => by omega⟩
  | succ c ih =>
    intro g src e hg h
    unfold searchLines at h
    cases hs : allSearch mps kernel one (junk c) veq fuel mexp g src with
    | none => rw [hs] at h; cases h
    | some r =>
      rw [hs] at h
      obtain ⟨h1, h2⟩ := allSearch_correct hm hK hmexp (junk c) veq fuel hg src hs
      rcases h1 with ⟨rfl, hn⟩ | ⟨t, src', d, rfl, ht, hl⟩
      · have : e = .shift [] := (Option.some.inj h).symm
        exact ⟨.inr ⟨[], this, by simp, hn, by simp⟩, fun _ _ _ => this⟩
      · refine ⟨?_, fun g1 g2 _ => by cases h2 g1 g2⟩
        dsimp only at h
        rw [Option.map_eq_some_iff] at h
        obtain ⟨e', he, rfl⟩ := h
        rcases (ih _ _ e' (getParamString_sinv ht) he).1 with ⟨L, rfl, k1, k2⟩ | ⟨L, rfl, k1, k2, k3⟩
        · exact .inl ⟨_ :: L, rfl, by simp [k1], by simpa using ⟨hl, k2⟩⟩
        · exact .inr ⟨_ :: L, rfl, by simpa using k1, k2, by simpa using ⟨hl, k3⟩⟩

theorem ctor_sinv (v : BitVec 64) (junkPos : ℕ) (junkA : BitVec 64) (junkS : ℕ → BitVec 64) :
    SInv mexp { ctor mexp v junkPos junkA junkS with pos := 0 } :=
  ⟨⟨rfl, by show mexp / 64 + 1 - 1 < _; omega, by show 0 < _; omega⟩, rfl, rfl⟩

/-- **C88.**  `rmt64dc`, for each of its exponents, any count, any seed and whatever memory that is not initialised contains: if the
search ends, either `count` lines are printed or an undefined shift of `setOneBit` is executed, and nothing else goes wrong; and every
printed line is a good one: `pos` in range, masks clean, the period of the outputs after `seed(1)` a multiple of `2^mexp - 1`, and delta the sum of the
defects of the large component plus `excess mexp` (provided that the parity vector, which replaces a word of the state, did not
remove the component). -/
theorem rmtMain_correct (hm : MinPolySeqSpec mps) (hK : KernelSpec kernel) (hmexp : mexp ∈ allowedMexp) (junk : ℕ → BitVec 64)
    (veq : ℕ → ℕ) (fuel : ℕ) (count : ℤ) (junkPos : ℕ) (junkA : BitVec 64) (junkS src : ℕ → BitVec 64) {e : Ends}
    (h : rmtMain mps kernel one junk veq fuel mexp count junkPos junkA junkS src = some e) :
    (∃ L, e = .normal L ∧ L.length = count.toNat ∧ ∀ l ∈ L, GoodLine mexp l) ∨
    ∃ L, e = .shift L ∧ L.length < count.toNat ∧ (∃ r < 64, one r = none) ∧ ∀ l ∈ L, GoodLine mexp l :=
  (searchLines_correct hm hK hmexp junk veq fuel count.toNat _ src e (ctor_sinv 1 junkPos junkA junkS) h).1

/-- **C88 (negation of "prints `count` lines").**  With the shifts of the C++ standard, for eleven of the fifteen exponents no line is ever printed: every run
that asks for a line and gets past the search for a recursion executes an undefined shift. -/
theorem rmtMain_undefined (hm : MinPolySeqSpec mps) (hK : KernelSpec kernel)
    (hmexp : mexp ∈ [521, 607, 2203, 3217, 4253, 4423, 9689, 9941, 11213, 21701, 44497]) (junk : ℕ → BitVec 64)
    (veq : ℕ → ℕ) (fuel : ℕ) {count : ℤ} (hc : 1 ≤ count) (junkPos : ℕ) (junkA : BitVec 64) (junkS src : ℕ → BitVec 64) {e : Ends}
    (h : rmtMain mps kernel intOneShift junk veq fuel mexp count junkPos junkA junkS src = some e) : e = .shift [] := by
  have h1 : ∀ e ∈ [521, 607, 2203, 3217, 4253, 4423, 9689, 9941, 11213, 21701, 44497], e ∈ allowedMexp ∧
      e + 33 ≤ (e / 64 + 1) * 64 := by decide
  exact (searchLines_correct hm hK (h1 mexp hmexp).1 junk veq fuel count.toNat _ src e (ctor_sinv 1 junkPos junkA junkS) h).2 rfl
    (h1 mexp hmexp).2 (by omega)

/-- **C88.**  The search for a recursion ends at once if the first two numbers of the source are good parameters. -/
theorem rmtMain_finds (hm : MinPolySeqSpec mps) (hK : KernelSpec kernel) (hmexp : mexp ∈ allowedMexp) (junk : ℕ → BitVec 64)
    (veq : ℕ → ℕ) {fuel : ℕ} (hfuel : 1 ≤ fuel) (junkPos : ℕ) (junkA : BitVec 64) (junkS src : ℕ → BitVec 64) {p f : (ZMod 2)[X]}
    (hp : IsSeqMinpoly p (Search.bitAt (ops (mexp / 64 + 1)) (seed 1 (setUpParam (src 0) (src 1) (ctor mexp 1 junkPos junkA junkS))) 0))
    (hf : Irreducible f) (hd : f.natDegree = mexp) (hdvd : f ∣ p) :
    ∃ e, rmtMain mps kernel one junk veq fuel mexp 1 junkPos junkA junkS src = some e := by
  obtain ⟨h65, hmod, -⟩ := allowed_ge mexp hmexp
  obtain ⟨fuel, rfl⟩ : ∃ k, fuel = k + 1 := ⟨fuel - 1, by omega⟩
  obtain ⟨tries, htr⟩ : ∃ tries, 1000 * ((mexp / 64 + 1) * 64) = tries + 1 := ⟨1000 * ((mexp / 64 + 1) * 64) - 1, by omega⟩
  have key : ∃ st, rFindLoop mps (searchOps mexp) mexp (tries + 1) (fuel + 1) ⟨ctor mexp 1 junkPos junkA junkS, src, 0, 0, 0⟩
      = some (.ret true st) ∧ Found mexp st := by
    have hg := ctor_sinv (mexp := mexp) 1 junkPos junkA junkS
    have e : rTryOnce mps (searchOps mexp) mexp ⟨{ ctor mexp 1 junkPos junkA junkS with pos := 0 }, src, 0, 0, 0⟩ =
      rTryOnce mps (searchOps mexp) mexp ⟨ctor mexp 1 junkPos junkA junkS, src, 0, 0, 0⟩ := rfl
    rcases rTryOnce_correct hm (family mexp) (show 1 ≤ mexp by omega) ⟨_, src, 0, 0, 0⟩ hg with
      ⟨h, -⟩ | ⟨r, src', st, b, g1, g2, -, -, g5, g6, g7, g8, g9, g10⟩
    · cases h
    · have hr : r = setUpParam (src 0) (src 1) (ctor mexp 1 junkPos junkA junkS) := by
        injection g1 with g1
        injection g1 with g1 _
        exact g1.symm
      have hr' := (family mexp).setUp_inv _ _ _ _ hg g1
      have hdeg : st.poly.natDegree < 2 * mexp := by
        obtain ⟨μ, hμ, hμd, hμa⟩ := exists_outMinpoly (linGenS (mexp := mexp) (par r)) (s := seed 1 r) ⟨seed_sinv hr', rfl⟩ (finrank_S _).le
        have h1 := (natDegree_le_of_dvd (g8.2.2 μ (hμa 0 (by decide))) hμ.1).trans hμd
        have h2 : (ops (mexp / 64 + 1)).bitSize = (mexp / 64 + 1) * 64 := rfl
        omega
      have hpp : p = st.poly := by
        rw [← hr] at hp
        exact hp.unique g8
      obtain ⟨hb, -⟩ := g10 f hf hd (hpp ▸ hdvd) hdeg
      subst hb
      obtain ⟨k1, k2, k3⟩ := g9 rfl
      refine ⟨st, ?_, g6, k1, k2, r, st.poly, hr', g7.symm, g8, k3, g5⟩
      have g2' := e.symm.trans g2
      unfold rFindLoop rStart
      rw [g2']
  obtain ⟨st, hst, hfound⟩ := key
  rw [← htr] at hst
  unfold rmtMain
  show ∃ e, searchLines mps kernel one junk veq (fuel + 1) mexp 1 _ src = some e
  unfold searchLines allSearch
  dsimp only
  rw [hst]
  dsimp only
  rcases (searchParity_ends (one := one) hK hmod (junk 0) hfound.inv.inv st.irreducible).1 with ⟨e, -⟩ | ⟨v, e⟩
  · rw [e]; exact ⟨_, rfl⟩
  · rw [e]
    dsimp only
    have hs : SInv mexp (setParityValue v st.rand) :=
      ⟨⟨hfound.inv.inv.size, hfound.inv.inv.index, hfound.inv.inv.pos⟩, hfound.inv.rev, hfound.inv.mexp_eq⟩
    obtain ⟨t, d, e1, -⟩ := after_spec hm veq hs h65 hfound.irr hfound.deg
    rw [e1]
    exact ⟨_, rfl⟩

end MTT.RMT
