import Verif.Anni.Search
import Verif.Search.ReducibleProps

/-!
# Acceptance in the reducible search: good parameters are accepted when they come up
-/

namespace MTT.Anni

open Polynomial PIS Search Parity

variable {σ π κ S : Type} {w : ℕ} [AddCommGroup S] [Module (ZMod 2) S] {R : ROps σ w} {setUp : σ → π → Option (σ × π)}
  {seedOne : σ → σ} {Inv0 Inv : σ → Prop} {par : σ → κ} {den : σ → S} {T : κ → S →ₗ[ZMod 2] S} {O : κ → S →ₗ[ZMod 2] V} {e : ℕ → S}
  {P : S →ₗ[ZMod 2] V} {mps : MPS}

/-- A property of the parameters that `setUp` guarantees can be added to the invariant. -/
theorem RFamily.and (F : RFamily R setUp seedOne Inv0 Inv par den T O e P) {Q : κ → Prop}
    (hQ : ∀ s src s' src', Inv0 s → setUp s src = some (s', src') → Q (par s')) :
    RFamily R setUp seedOne Inv0 (fun s => Inv s ∧ Q (par s)) par den T O e P where
  wpos := F.wpos
  red s hs := by
    have : (fun t => (Inv t ∧ Q (par t)) ∧ par t = par s) = fun t => Inv t ∧ par t = par s := by
      funext t
      apply propext
      constructor
      · rintro ⟨⟨h1, -⟩, h2⟩; exact ⟨h1, h2⟩
      · rintro ⟨h1, h2⟩; exact ⟨⟨h1, h2 ▸ hs.2⟩, h2⟩
    rw [this]
    exact F.red s hs.1
  weak s hs := F.weak s hs.1
  setUp_inv s src s' src' hs h := ⟨F.setUp_inv s src s' src' hs h, hQ s src s' src' hs h⟩
  seed_inv s hs := by
    obtain ⟨h1, h2, h3⟩ := F.seed_inv s hs.1
    exact ⟨⟨h1, h2 ▸ hs.2⟩, h2, h3⟩
  seed_den s t hs ht h := F.seed_den s t hs.1 ht.1 h

theorem Hit.mono {Inv' : σ → Prop} (h : ∀ s, Inv' s → Inv s) {f p : (ZMod 2)[X]} {s : σ}
    (H : Hit R seedOne Inv' par den e f p s) : Hit R seedOne Inv par den e f p s := by
  obtain ⟨r, r1, r2, r3⟩ := H.min
  obtain ⟨t, t1, t2, t3⟩ := H.steps
  exact ⟨h _ H.inv, H.mem, H.irr, H.deg, ⟨r, h _ r1, r2, r3⟩, ⟨t, h _ t1, t2, t3⟩, H.dvd⟩

/-- The outputs of an object in the reachable part have a minimal polynomial of degree at most `bitSize`. -/
theorem exists_bitMinpoly (F : RFamily R setUp seedOne Inv0 Inv par den T O e P) {r : σ} (hr : Inv r) :
    ∃ p, IsSeqMinpoly p (bitAt R.toGenOps (seedOne r) 0) ∧ p.natDegree ≤ R.bitSize := by
  obtain ⟨hs, hpar, hmem⟩ := F.seed_inv r hr
  have h := F.red r hr
  have := M_finite R.bitSize e
  have hl := restrict h.toLinGen (M R.bitSize e) h.closed
  obtain ⟨μ, hμ, hμd, hμa⟩ := exists_outMinpoly hl (s := seedOne r) ⟨⟨hs, hpar⟩, hmem⟩ (finrank_M h).le
  obtain ⟨p, hp⟩ := exists_seqMinpoly hμ.1 (hμa 0 F.wpos)
  exact ⟨p, hp, (natDegree_le_of_dvd (hp.2.2 _ (hμa 0 F.wpos)) hμ.1).trans hμd⟩

/-- If the parameters that `setUp` chooses first have a large factor, the search accepts them at once. -/
theorem rStart_finds (hm : MinPolySeqSpec mps) (F : RFamily R setUp seedOne Inv0 Inv par den T O e P) (hmexp : 1 ≤ R.mexp)
    (hbig : R.bitSize < 2 * R.mexp) (n : ℕ) (st : RSt σ π) (hinv : Inv0 st.rand) {r : σ} {src : π}
    (hsu : setUp st.rand st.src = some (r, src)) {f p : (ZMod 2)[X]} (hf : Irreducible f) (hd : f.natDegree = R.mexp)
    (hp : IsSeqMinpoly p (bitAt R.toGenOps (seedOne r) 0)) (hdvd : f ∣ p) :
    ∃ st', rStart mps (dOps R setUp seedOne) R.mexp (n + 1) st = .ret true st' ∧ par st'.rand = par r ∧
      Hit R seedOne Inv par den e st'.irreducible st'.poly st'.rand := by
  rcases rTryOnce_red hm F hmexp st hinv with ⟨h1, -⟩ |
    ⟨r', src', st1, b, h1, h2, h3, h4, h5, h6, h7, h7', h7'', h8, h9, h10⟩
  · rw [h1] at hsu; cases hsu
  · rw [h1] at hsu
    injection hsu with hsu
    injection hsu with e1 e2
    subst e1
    obtain rfl := hp.unique h8
    obtain ⟨q, hq, hqd⟩ := exists_bitMinpoly F h5
    obtain rfl := hp.unique hq
    obtain ⟨hb, -⟩ := h10 f hf hd hdvd (by omega)
    subst hb
    obtain ⟨k1, k2, k3⟩ := h9 rfl
    exact ⟨st1, by simp only [rStart, h2], h7, h6, h7', k1, k2, ⟨r', h5, h7.symm, h8⟩, ⟨r', h5, h7.symm, h8, h7''⟩, k3⟩

end MTT.Anni
