import Verif.Samples.SFMTTools
import Verif.Samples.SFMTDCProps
import Verif.Samples.LineTextProps

/-!
# C70, C71: the tools calc_equidist and calc_parity of the SFMT creator
-/

namespace MTT.SFMT

open Polynomial PIS Search W128 Parity Anni SIMD Text

variable {mexp : ℕ} {mps : MPS} {kernel : KernelFn}

theorem Measured.unique {p : Par} {f : (ZMod 2)[X]} {lsb : Bool} {a b c a' b' c' : ℤ} (h : Measured mexp p f lsb a b c)
    (h' : Measured mexp p f lsb a' b' c') : a = a' ∧ b = b' ∧ c = c' :=
  ⟨h.s32.unique h'.s32, h.s64.unique h'.s64, h.s128.unique h'.s128⟩

/-- Parameters in range are read back. -/
theorem parse_ok {l : Fields} (h3 : l.mexp < 2 ^ 30)
    (hp : ParOK l.param ∧ 1 ≤ l.param.pos1 ∧ l.param.pos1 < l.mexp / 128 + 1) (rest : List Char) :
    parse (getString l ++ rest) = some l := by
  obtain ⟨h, -, h2⟩ := hp
  exact parse_getString l (by omega) (by omega) (by have := h.sl1; omega) (by have := h.sl2; omega)
    (by have := h.sr1; omega) (by have := h.sr2; omega) rest

/-- The component of dimension `mexp` is determined by the parameters. -/
theorem large_unique (h1 : 256 ≤ mexp) {p : Par} (hp : ParOK p ∧ 1 ≤ p.pos1 ∧ p.pos1 < mexp / 128 + 1)
    {f f' : (ZMod 2)[X]} (hf : Irreducible f) (hdeg : f.natDegree = mexp)
    (hx : Module.finrank (ZMod 2) (Large (mexp / 128 + 1) p f) = mexp) (hf' : Irreducible f') (hdeg' : f'.natDegree = mexp)
    (hx' : Module.finrank (ZMod 2) (Large (mexp / 128 + 1) p f') = mexp) : f' = f := by
  have hg := gen_inv (mexp := mexp) (l := ⟨mexp, p, 0, 0, 0, 0⟩) h1 rfl hp
  have key : ∀ f : (ZMod 2)[X], Module.finrank (ZMod 2) (Large (mexp / 128 + 1) p f) = mexp →
      ∃ x ∈ M ((mexp / 128 + 1) * 128) (unit (mexp / 128 + 1)), x ≠ 0 ∧
        aeval (T (mexp / 128 + 1) ⟨p, 0, 4, false⟩) f x = 0 := by
    intro f hr
    have hne : Large (mexp / 128 + 1) p f ≠ ⊥ := by
      intro h
      rw [h, finrank_bot] at hr
      omega
    obtain ⟨x, hx, hx0⟩ := Submodule.exists_mem_ne_zero_of_ne_bot hne
    refine ⟨(x, 0), by rw [M_full, mem_full], fun h => hx0 (congrArg Prod.fst h), ?_⟩
    rw [aeval_ring rfl]
    show (aeval (T1 (mexp / 128 + 1) p) f x, (0 : Wd 128)) = 0
    rw [LinearMap.mem_ker.1 hx]; rfl
  exact root_unique (redGen1 hg) (by show (mexp / 128 + 1) * 128 < 2 * mexp; omega) hf hdeg (key f hx) hf' hdeg' (key f' hx')

/-- **C70.**  `calc_equidist` on a text that begins with admissible parameters, for every seed word and both orders of the
bits: it fails exactly when the seed has no large component, and otherwise prints the parameters and the measures of the large
component; no exception, nothing undefined. -/
theorem calcEquidist_correct (hm : MinPolySeqSpec mps) (J : Junk) (w : W128) (reverse : Bool) {l : Fields}
    (h1 : 256 ≤ l.mexp) (h3 : l.mexp < 2 ^ 30) (hp : ParOK l.param ∧ 1 ≤ l.param.pos1 ∧ l.param.pos1 < l.mexp / 128 + 1)
    (rest : List Char) :
    (calcEquidist mps J w reverse (getString l ++ rest) = .fails ∧ ¬ HasLarge l.mexp (seed w l.gen)) ∨
    ∃ d32 d64 d128, calcEquidist mps J w reverse (getString l ++ rest) = .printed ⟨l, d32, d64, d128⟩ ∧
      HasLarge l.mexp (seed w l.gen) ∧
      ∃ f : (ZMod 2)[X], Irreducible f ∧ f.natDegree = l.mexp ∧ Measured l.mexp l.param f reverse d32 d64 d128 := by
  have hg := gen_inv h1 rfl hp
  have hs : Inv1 (l.mexp / 128 + 1) l.mexp (seed w l.gen) :=
    ⟨(seed_inv hg.toInv w).1, hg.start, hg.weight, hg.rev, hg.mexp⟩
  have hR := Anni.RedGen.field (redGen1 hs) (fun t => (t.parity1, t.parity2, t.parity3, t.parity4)) (fun _ => rfl)
    (fun _ _ => rfl) (fun _ _ => rfl) (fun _ => rfl) (fun _ _ => rfl) (l.parity1, l.parity2, l.parity3, l.parity4)
  obtain ⟨g2, b, p, a1, a2, a3, a4⟩ := anniS_correct hm hR (by decide) (by show 1 ≤ l.mexp; omega)
    (by show (l.mexp / 128 + 1) * 128 < 2 * l.mexp; omega)
    (obs rfl hs.three hs.pos_pos hs.pos hs.ok) (s := seed w l.gen) ⟨⟨hs, rfl⟩, rfl⟩ (den_full hs.weight)
  unfold calcEquidist
  rw [parse_ok h3 hp rest]
  dsimp only
  rw [a1]
  cases b with
  | false =>
    refine .inl ⟨rfl, ?_⟩
    rintro ⟨f, p', f1, f2, f3, f4⟩
    rw [f3.unique a2] at f4
    exact (a3 rfl).2 f f1 f2 f4
  | true =>
    obtain ⟨f, f1, f2, f3, ⟨⟨⟨i1, i2⟩, i3⟩, i4, i5⟩⟩ := a4 rfl
    have i2' : g2.param = l.param := i2
    have i3' : (g2.parity1, g2.parity2, g2.parity3, g2.parity4) = (l.parity1, l.parity2, l.parity3, l.parity4) := i3
    rw [Prod.mk.injEq, Prod.mk.injEq, Prod.mk.injEq] at i3'
    obtain ⟨j1, j2, j3, j4⟩ := i3'
    have i5' : IsVecMinpoly (T (l.mexp / 128 + 1) ⟨g2.param, 0, 4, false⟩) (den (l.mexp / 128 + 1) g2) f := by
      rw [i2']; exact i5
    obtain ⟨d32, d64, d128, e1, e2⟩ := deltas_correct h1 h3 J i1 f1 f2 i5' reverse
    refine .inr ⟨d32, d64, d128, ?_, ⟨f, p, f1, f2, a2, f3⟩, f, f1, f2, i2' ▸ e2⟩
    have hr : (if reverse then { g2 with rev := true } else g2) = { g2 with rev := reverse } := by
      cases reverse with
      | false => rw [if_neg (by decide), ← i1.rev]
      | true => rfl
    have hr2 : { { g2 with rev := reverse } with rev := false } = g2 := by
      show { g2 with rev := false } = g2
      rw [← i1.rev]
    dsimp only
    rw [hr, hr2, e1]
    dsimp only
    unfold fieldsOf
    rw [i1.mexp, i2', j1, j2, j3, j4]

/-- **C70.**  `calc_equidist` on a line that sfmtdc printed prints the same line or fails; with seed 1 it does not fail. -/
theorem calcEquidist_reproduces (hm : MinPolySeqSpec mps) (J : Junk) (w : W128) (h1 : 256 ≤ mexp) (h3 : mexp < 2 ^ 30)
    {l : Line} (hl : GoodLine mexp l) :
    (calcEquidist mps J w false l.text = .fails ∨ calcEquidist mps J w false l.text = .printed l) ∧
      calcEquidist mps J (mk32 1 0 0 0) false l.text = .printed l := by
  obtain ⟨f, f1, f2, f3⟩ := hl.equi
  have hone := hl.one
  obtain ⟨hme, hp, -⟩ := hl.toGoodFields
  subst hme
  have key : ∀ w, (calcEquidist mps J w false l.text = .fails ∧ ¬ HasLarge l.mexp (seed w l.gen)) ∨
      calcEquidist mps J w false l.text = .printed l := by
    intro w
    unfold Line.text
    rw [List.append_assoc, List.append_assoc, List.append_assoc, List.append_assoc]
    rcases calcEquidist_correct hm J w false h1 h3 hp (decInt l.delta32 ++ ([','] ++ (decInt l.delta64 ++ ([','] ++
      decInt l.delta128)))) with ⟨e1, e2⟩ | ⟨d32, d64, d128, e1, -, f', g1, g2, g3⟩
    · exact .inl ⟨e1, e2⟩
    · have := large_unique h1 hp f1 f2 f3.dim g1 g2 g3.dim
      subst this
      obtain ⟨u1, u2, u3⟩ := g3.unique f3
      rw [u1, u2, u3] at e1
      exact .inr e1
  refine ⟨?_, ?_⟩
  · rcases key w with h | h
    · exact .inl h.1
    · exact .inr h
  · rcases key (mk32 1 0 0 0) with h | h
    · exact absurd hone h.2
    · exact h

/-- **C70.**  With `-r` the result does not depend on the seed. -/
theorem calcEquidist_seed (hm : MinPolySeqSpec mps) (J J' : Junk) (w w' : W128) (reverse : Bool) {l : Fields}
    (h1 : 256 ≤ l.mexp) (h3 : l.mexp < 2 ^ 30) (hp : ParOK l.param ∧ 1 ≤ l.param.pos1 ∧ l.param.pos1 < l.mexp / 128 + 1)
    (rest rest' : List Char) {a a' : Line} (ha : calcEquidist mps J w reverse (getString l ++ rest) = .printed a)
    (ha' : calcEquidist mps J' w' reverse (getString l ++ rest') = .printed a') : a = a' := by
  rcases calcEquidist_correct hm J w reverse h1 h3 hp rest with ⟨e1, -⟩ | ⟨d32, d64, d128, e1, -, f, f1, f2, f3⟩
  · rw [e1] at ha; cases ha
  rcases calcEquidist_correct hm J' w' reverse h1 h3 hp rest' with ⟨e1', -⟩ | ⟨c32, c64, c128, e1', -, f', g1, g2, g3⟩
  · rw [e1'] at ha'; cases ha'
  rw [e1] at ha
  rw [e1'] at ha'
  have := large_unique h1 hp f1 f2 f3.dim g1 g2 g3.dim
  subst this
  obtain ⟨u1, u2, u3⟩ := g3.unique f3
  cases ha
  cases ha'
  rw [u1, u2, u3]

/-- **C71.**  `calc_parity` on a text that begins with admissible parameters: it reports an error exactly when the seed has
no large component, and otherwise prints the parameters with a parity vector for which certified objects have a period that
is a multiple of `2^mexp - 1`, whatever parity vector was given. -/
theorem calcParity_correct (hm : MinPolySeqSpec mps) (hK : KernelSpec kernel) {l : Fields}
    (hprime : (2 ^ l.mexp - 1).Prime) (h1 : 256 ≤ l.mexp) (h2 : l.mexp % 128 ≠ 0) (h3 : l.mexp < 2 ^ 30) {fuel : ℕ}
    (hfuel : (l.mexp / 128 + 1) * 128 < fuel) (sh w : W128)
    (hp : ParOK l.param ∧ 1 ≤ l.param.pos1 ∧ l.param.pos1 < l.mexp / 128 + 1) (rest : List Char) :
    (calcParity mps kernel fuel sh w (getString l ++ rest) = .fails ∧ ¬ HasLarge l.mexp (seed w l.gen)) ∨
    ∃ l', calcParity mps kernel fuel sh w (getString l ++ rest) = .printed l' ∧ HasLarge l.mexp (seed w l.gen) ∧
      l'.param = l.param ∧ GoodFields l.mexp l' := by
  have hg := gen_inv h1 rfl hp
  have hs : Inv1 (l.mexp / 128 + 1) l.mexp (seed w l.gen) :=
    ⟨(seed_inv hg.toInv w).1, hg.start, hg.weight, hg.rev, hg.mexp⟩
  have h := redGen1 hs
  have hsM : den (l.mexp / 128 + 1) (seed w l.gen) ∈ M ((l.mexp / 128 + 1) * 128) (unit (l.mexp / 128 + 1)) :=
    den_full hs.weight
  have hmexp : 1 ≤ l.mexp := by omega
  have hbig : (l.mexp / 128 + 1) * 128 < 2 * l.mexp := by omega
  have := M_finite ((l.mexp / 128 + 1) * 128) (unit (l.mexp / 128 + 1))
  have hr := restrict h.toLinGen (M ((l.mexp / 128 + 1) * 128) (unit (l.mexp / 128 + 1))) h.closed
  have hdim : Module.finrank (ZMod 2) (M ((l.mexp / 128 + 1) * 128) (unit (l.mexp / 128 + 1))) ≤
    (l.mexp / 128 + 1) * 128 := (finrank_M h).le
  obtain ⟨p, e1, e2⟩ := minpoly_dim hm hr (s := seed w l.gen) ⟨⟨hs, rfl⟩, hsM⟩ (show 0 < 128 by decide) hdim
  simp only [Nat.cast_zero] at e1
  obtain ⟨⟨hs1, hs2⟩, -⟩ := (stateAt_spec hr (g := seed w l.gen) ⟨⟨hs, rfl⟩, hsM⟩ (2 * ((l.mexp / 128 + 1) * 128))).1
  have hpd : p.natDegree ≤ (l.mexp / 128 + 1) * 128 := by
    have hc := LinearMap.charpoly_monic ((T (l.mexp / 128 + 1) ⟨(seed w l.gen).param, 0, 4, false⟩).restrict h.closed)
    have hd : p ∣ ((T (l.mexp / 128 + 1) ⟨(seed w l.gen).param, 0, 4, false⟩).restrict h.closed).charpoly := by
      apply e2.2.2
      rw [bitAt_eq hr ⟨⟨hs, rfl⟩, hsM⟩ (by decide)]; exact ann_charpoly _ _
    exact (natDegree_le_of_dvd hd hc.ne_zero).trans ((LinearMap.charpoly_natDegree _).le.trans hdim)
  obtain ⟨b, irr, g1, g2, g3, -⟩ := Period.hasFactorOfDegree_correct p hmexp (fuel := p.natDegree + 1) le_rfl
  unfold calcParity
  rw [parse_ok h3 hp rest]
  dsimp only
  rw [show minpoly mps (ops (l.mexp / 128 + 1)) 0 0 (seed w l.gen) =
    some (stateAt (ops (l.mexp / 128 + 1)) (seed w l.gen) (2 * ((l.mexp / 128 + 1) * 128)), p) from e1]
  dsimp only
  set sf := stateAt (ops (l.mexp / 128 + 1)) (seed w l.gen) (2 * ((l.mexp / 128 + 1) * 128)) with hsf
  have hs1' : Inv1 (l.mexp / 128 + 1) l.mexp sf := hs1
  have hs2' : sf.param = l.param := hs2
  rw [hs1'.mexp, g1]
  cases b with
  | false =>
    refine .inl ⟨rfl, ?_⟩
    rintro ⟨f, p', f1, f2, f3, f4⟩
    rw [f3.unique e2] at f4
    have := Period.hasFactorOfDegree_half p f e2.1 hmexp (fuel := p.natDegree + 1) le_rfl f1 f4 f2 (by omega)
    rw [g1] at this
    simp at this
  | true =>
    obtain ⟨k1, k2⟩ := g3 rfl
    have hroot := exists_root h (by decide) ⟨hs, rfl⟩ hsM (by omega) e2 g2
    have hroot' : ∃ x ∈ M ((l.mexp / 128 + 1) * 128) (unit (l.mexp / 128 + 1)), x ≠ 0 ∧
        aeval (T (l.mexp / 128 + 1) ⟨sf.param, 0, 4, false⟩) irr x = 0 := by
      rw [hs2']; exact hroot
    obtain ⟨v, hv⟩ := searchParity_returns (redGen1 hs1') wordsOK128 hK
      (obsP hs1'.three hs1'.pos_pos hs1'.pos hs1'.ok) k1 k2 hroot'
      (by show (l.mexp / 128 + 1) * 128 - l.mexp < 128; omega) (fuel := fuel) hfuel sh ⟨hs1', rfl⟩
    dsimp only
    rw [hv]
    refine .inr ⟨_, rfl, ⟨irr, p, k1, k2, e2, g2⟩, hs2', ?_⟩
    have := parity_good hK hprime h1 hbig hs1' k1 k2 hroot' hv
    have hfl : fieldsOf ((rops (l.mexp / 128 + 1) l.mexp).setParity v sf) =
        ⟨l.mexp, sf.param, u v 0, u v 1, u v 2, u v 3⟩ := by
      show (⟨sf.mexp, sf.param, u v 0, u v 1, u v 2, u v 3⟩ : Fields) = _
      rw [hs1'.mexp]
    rw [hfl]
    exact this

/-- **C71.**  On a line that sfmtdc printed and with seed 1, `calc_parity` prints a right parity vector. -/
theorem calcParity_line (hm : MinPolySeqSpec mps) (hK : KernelSpec kernel) (hmexp : mexp ∈ allowedMexp) {fuel : ℕ}
    (hfuel : (mexp / 128 + 1) * 128 < fuel) (sh : W128) {l : Line} (hl : GoodLine mexp l) :
    ∃ l', calcParity mps kernel fuel sh (mk32 1 0 0 0) l.text = .printed l' ∧ l'.param = l.param ∧ GoodFields mexp l' := by
  obtain ⟨h1, h2, h3, h4, h5⟩ := allowed mexp hmexp
  have hone := hl.one
  obtain ⟨hme, hp, -⟩ := hl.toGoodFields
  subst hme
  unfold Line.text
  rw [List.append_assoc, List.append_assoc, List.append_assoc, List.append_assoc]
  rcases calcParity_correct hm hK (Mexp.table_prime _ h4 h5) h1 h2 h3 hfuel sh (mk32 1 0 0 0) hp (decInt l.delta32 ++
    ([','] ++ (decInt l.delta64 ++ ([','] ++ decInt l.delta128)))) with ⟨-, e2⟩ | ⟨l', e1, -, e3, e4⟩
  · exact absurd hone e2
  · exact ⟨l', e1, e3, e4⟩

-- The hypotheses can be met: the published parameters of SFMT19937 are in range.
example : 256 ≤ line19937.mexp ∧ line19937.mexp < 2 ^ 30 ∧ ParOK line19937.param ∧ 1 ≤ line19937.param.pos1 ∧
    line19937.param.pos1 < line19937.mexp / 128 + 1 :=
  ⟨by decide, by decide, ⟨by decide, by decide, by decide, by decide, by decide, by decide⟩, by decide, by decide⟩

end MTT.SFMT
