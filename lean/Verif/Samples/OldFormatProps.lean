import Verif.Samples.OldFormat
import Verif.Samples.DSFMTToolsProps
import Verif.Samples.DSFMTDCExample

/-!
# C99: make_old_format of the dSFMT search
-/

namespace MTT.DSFMT

open Polynomial PIS Search W128 Parity Anni Text

variable {n mexp : ℕ} {mps : MPS}

/-! ### The text of a polynomial -/

theorem binLoop_append (p : (ZMod 2)[X]) : ∀ m k i, binLoop p (m + k) i = binLoop p m i ++ binLoop p k (i + m)
  | 0, k, i => by simp [binLoop]
  | m + 1, k, i => by
    rw [show m + 1 + k = (m + k) + 1 by omega, binLoop, binLoop_append p m k (i + 1), binLoop,
      show i + 1 + m = i + (m + 1) by omega]
    simp

theorem binLoop_succ (p : (ZMod 2)[X]) (m : ℕ) : binLoop p (m + 1) 0 =
    binLoop p m 0 ++ ((if p.coeff m = 1 then '1' else '0') :: if m % 32 = 31 then ['\n'] else []) := by
  rw [binLoop_append p m 1 0, zero_add]
  simp [binLoop]

theorem binLoop_length (p : (ZMod 2)[X]) : ∀ m, (binLoop p m 0).length = m + m / 32
  | 0 => rfl
  | m + 1 => by
    rw [binLoop_succ, List.length_append, binLoop_length p m, List.length_cons]
    split <;> (simp; omega)

theorem binLoop_get (p : (ZMod 2)[X]) : ∀ m k, k < m + m / 32 →
    (binLoop p m 0)[k]? = some (if k % 33 = 32 then '\n' else if p.coeff (k - k / 33) = 1 then '1' else '0')
  | 0, k, h => by omega
  | m + 1, k, h => by
    rw [binLoop_succ]
    have hl := binLoop_length p m
    rcases Nat.lt_or_ge k (m + m / 32) with hk | hk
    · rw [List.getElem?_append_left (by omega), binLoop_get p m k hk]
    · rw [List.getElem?_append_right (by omega), hl]
      rcases Nat.lt_or_ge (m + m / 32) k with h1 | h1
      · have h31 : m % 32 = 31 := by omega
        have hk' : k % 33 = 32 := by omega
        rw [if_pos h31, show k - (m + m / 32) = 1 by omega, if_pos hk']
        rfl
      · have hk' : ¬ k % 33 = 32 := by omega
        rw [show k - (m + m / 32) = 0 by omega, if_neg hk', show k - k / 33 = m by omega]
        rfl

theorem binLoop_chars (p : (ZMod 2)[X]) : ∀ m i, ∀ c ∈ binLoop p m i, c ≠ 'd'
  | 0, _, c, h => by simp [binLoop] at h
  | m + 1, i, c, h => by
    rw [binLoop, List.mem_cons, List.mem_append] at h
    rcases h with rfl | h | h
    · split <;> decide
    · split at h
      · rw [List.mem_singleton] at h; subst h; decide
      · simp at h
    · exact binLoop_chars p m (i + 1) c h

/-- **C99.**  The text of a polynomial other than 0: 32 coefficients in a line, the constant one first, and its degree. -/
theorem printBinary_layout {p : (ZMod 2)[X]} (hp : p ≠ 0) : ∃ body, printBinary p =
      body ++ "deg=".toList ++ dec p.natDegree ++ ['\n'] ∧
      body.length = (p.natDegree + 1) + (p.natDegree + 1) / 32 ∧
      ∀ k, k < body.length → body[k]? = some (if k % 33 = 32 then '\n' else if p.coeff (k - k / 33) = 1 then '1' else '0') := by
  have hd : Period.deg p = p.natDegree := Period.deg_of_ne hp
  refine ⟨binLoop p (p.natDegree + 1) 0, ?_, binLoop_length p _, fun k hk => ?_⟩
  · unfold printBinary
    rw [hd, if_neg (by omega)]
    unfold decInt
    rw [if_neg (by omega)]
    rfl
  · rw [binLoop_length] at hk
    exact binLoop_get p _ k hk

theorem printBinary_zero : printBinary 0 = "0deg=-1\n".toList := by
  unfold printBinary
  rw [if_pos (by rw [Period.deg, if_pos rfl]; omega)]

/-- What stands before the letter `d` gives all coefficients. -/
theorem printBinary_body (p : (ZMod 2)[X]) : ∃ body rest, printBinary p = body ++ 'd' :: rest ∧ (∀ c ∈ body, c ≠ 'd') ∧
    ∀ i, p.coeff i = 1 ↔ body[i + i / 32]? = some '1' := by
  by_cases hp : p = 0
  · subst hp
    refine ⟨['0'], "eg=-1\n".toList, printBinary_zero, by simp, fun i => ?_⟩
    rw [coeff_zero]
    cases i with
    | zero => decide
    | succ i => rw [show i + 1 + (i + 1) / 32 = i + (i + 1) / 32 + 1 by omega]; simp
  · obtain ⟨body, e1, e2, e3⟩ := printBinary_layout hp
    have hb : body = binLoop p (p.natDegree + 1) 0 := by
      apply List.ext_getElem?
      intro k
      rcases Nat.lt_or_ge k body.length with h | h
      · rw [e3 k h, binLoop_get _ _ _ (by omega)]
      · rw [List.getElem?_eq_none h, List.getElem?_eq_none (by rw [binLoop_length]; omega)]
    refine ⟨body, "eg=".toList ++ dec p.natDegree ++ ['\n'], by rw [e1]; simp, ?_, fun i => ?_⟩
    · rw [hb]; exact binLoop_chars p _ _
    · rcases Nat.lt_or_ge (i + i / 32) body.length with h | h
      · rw [e3 _ h, if_neg (by omega), show i + i / 32 - (i + i / 32) / 33 = i by omega]
        by_cases hc : p.coeff i = 1
        · simp [hc]
        · rw [if_neg hc]
          simp [hc]
      · rw [List.getElem?_eq_none h, coeff_eq_zero_of_natDegree_lt (by omega)]
        decide

/-- **C99.**  The text of a polynomial determines it, also when other text follows. -/
theorem printBinary_inj {p q : (ZMod 2)[X]} {r r' : List Char} (h : printBinary p ++ r = printBinary q ++ r') :
    p = q ∧ r = r' := by
  obtain ⟨b, s, e1, e2, e3⟩ := printBinary_body p
  obtain ⟨b', s', e1', e2', e3'⟩ := printBinary_body q
  have key : ∀ (b s : List Char), (∀ c ∈ b, c ≠ 'd') → (b ++ 'd' :: s).takeWhile (· ≠ 'd') = b := by
    intro b s hb
    rw [List.takeWhile_append_of_pos (by simpa using hb)]
    simp
  have hb : b = b' := by
    rw [e1, e1', List.append_assoc, List.append_assoc, List.cons_append, List.cons_append] at h
    rw [← key b (s ++ r) e2, h, key b' _ e2']
  subst hb
  have hpq : p = q := by
    ext i
    have h1 : ∀ a b : ZMod 2, (a = 1 ↔ b = 1) → a = b := by decide
    exact h1 _ _ ((e3 i).trans (e3' i).symm)
  subst hpq
  exact ⟨rfl, List.append_cancel_left h⟩

/-! ### The header -/

theorem digits_len (k x : ℕ) (h : x < 16 ^ (k + 1)) : (digits 16 x).length ≤ k + 1 := by
  induction k generalizing x with
  | zero =>
    rw [digits, dif_pos (.inl (by omega))]
    simp
  | succ k ih =>
    rw [digits]
    split
    · simp
    · rw [List.length_append, List.length_singleton]
      have := ih (x / 16) (by rw [Nat.div_lt_iff_lt_mul (by decide)]; rw [pow_succ] at h; exact h)
      omega

/-- A text of 16 hexadecimal digits with the given value. -/
def Hex16 (x : BitVec 64) (d : List Char) : Prop := d.length = 16 ∧ readDigits 16 d 0 = (x.toNat, [])

theorem hexW_hex16 (x : BitVec 64) : Hex16 x (hexW 16 x.toNat) := by
  constructor
  · unfold hexW
    have := digits_len 15 x.toNat (by have := x.isLt; omega)
    rw [List.length_append, List.length_replicate]
    omega
  · unfold hexW
    rw [readDigits_zeros (.inr rfl)]
    have := readDigits_digits (.inr rfl) x.toNat []
    rw [List.append_nil] at this
    rw [this]
    rfl

/-- **C99.**  The header: the numbers in decimal, the six words as 16 hexadecimal digits with their values. -/
theorem oldHeader_layout (l : Fields) (m : ℕ) : ∃ d1 d2 d3 d4 d5 d6, Hex16 l.param.msk1 d1 ∧ Hex16 l.param.msk2 d2 ∧
    Hex16 l.fix1 d3 ∧ Hex16 l.fix2 d4 ∧ Hex16 l.parity1 d5 ∧ Hex16 l.parity2 d6 ∧
    oldHeader l m = "succ = 1\nmexp = ".toList ++ dec l.mexp ++ ", maxdegree = ".toList ++ dec m ++ "\npos1 = ".toList ++
      dec l.param.pos1 ++ "\nsl1 = ".toList ++ dec l.param.sl1 ++ "\nmsk1 = ".toList ++ d1 ++ "\nmsk2 = ".toList ++ d2 ++
      "\nfix1 = ".toList ++ d3 ++ "\nfix2 = ".toList ++ d4 ++ "\npcv1 = ".toList ++ d5 ++ "\npcv2 = ".toList ++ d6 ++ ['\n'] :=
  ⟨_, _, _, _, _, _, hexW_hex16 _, hexW_hex16 _, hexW_hex16 _, hexW_hex16 _, hexW_hex16 _, hexW_hex16 _, by
    unfold oldHeader
    simp⟩

/-! ### The program -/

/-- **C99.**  `make_old_format` on a text that begins with admissible parameters, for every seed word: after the header it
either reports that there is no factor of degree mexp (exactly if the seed has no large component) and ends with the
exception, or prints the irreducible factor `f` of degree mexp of the minimal polynomial of the lowest output bit, and a
multiple `r` of it that annihilates the seeded state and divides the minimal polynomial of the transition. -/
theorem oldFormat_correct (hm : MinPolySeqSpec mps) (w : W128) {l : Fields} (h1 : 336 ≤ l.mexp) (h3 : l.mexp < 2 ^ 30)
    (hn : (l.mexp - 128) / 104 + 1 = n) (hp : ParOK n l.param) (rest : List Char) :
    ∃ p, IsSeqMinpoly p (Search.bitAt (ops n) (seed w l.gen) 0) ∧
    ((¬ HasLarge n l.mexp (seed w l.gen) ∧ ∃ g, g ∣ p ∧
      oldFormat mps w (getString l ++ rest) = some (oldHeader l (n * 104 + 128) ++
        ("error does not have factor of degree ".toList ++ dec l.mexp ++ "\ndegree = ".toList ++ dec g.natDegree ++ ['\n']),
        true)) ∨
    (HasLarge n l.mexp (seed w l.gen) ∧ ∃ f r : (ZMod 2)[X], Irreducible f ∧ f.natDegree = l.mexp ∧
      Large n l.param f ≠ ⊥ ∧ f ∣ p ∧ p ∣ r ∧ r ≠ 0 ∧
      r.natDegree ≤ n * 104 + 128 ∧ aeval (T1 n l.param) r (core n (seed w l.gen)) = 0 ∧
      (∀ q, (∀ x ∈ Low n, aeval (T1 n l.param) q x = 0) → r ∣ q) ∧
      oldFormat mps w (getString l ++ rest) = some (oldHeader l (n * 104 + 128) ++ (printBinary f ++ printBinary r), false))) := by
  have hg := gen_inv h1 hn rfl hp
  have hbig : n * 104 + 128 < 2 * l.mexp := by omega
  have hn0 : 0 < n := by omega
  obtain ⟨hs, hsp, hsM⟩ := seeded_inv hg w
  have hsp : (seed w l.gen).param = l.param := hsp
  have hR := redGen1 hs
  have hsM : den n (seed w l.gen) ∈ M (rops n l.mexp).bitSize (unit n) := hsM
  obtain ⟨p, sf, b, irr, e1, e2, ⟨i1, i2⟩, i3, e3, e4, e5, e6⟩ := factor_step hm hR (by decide)
    (by show 1 ≤ l.mexp; omega) hbig ⟨hs, rfl⟩ hsM
  have i2' : sf.param = l.param := i2.trans hsp
  obtain ⟨b', irr', g1, g2, -, -⟩ := Period.hasFactorOfDegree_correct p (degree := l.mexp) (by omega)
    (fuel := p.natDegree + 1) le_rfl
  have hL : HasLarge n l.mexp (seed w l.gen) ↔ ∃ f : (ZMod 2)[X], Irreducible f ∧ f.natDegree = l.mexp ∧ f ∣ p := by
    constructor
    · rintro ⟨f, p', h1, h2, h3, h4⟩
      rw [h3.unique e2] at h4
      exact ⟨f, h1, h2, h4⟩
    · rintro ⟨f, h1, h2, h3⟩
      exact ⟨f, p, h1, h2, e2, h3⟩
  refine ⟨p, e2, ?_⟩
  have e4' : Period.hasFactorOfDegree (p.natDegree + 1) p l.mexp = some (b, irr) := e4
  rw [e4', Option.some.injEq, Prod.mk.injEq] at g1
  obtain ⟨rfl, rfl⟩ := g1
  unfold oldFormat oldFixpoint
  rw [parse_getString l (by omega) (by have := hp.2.2.1; omega) (by have := hp.2.2.2.2; omega) rest]
  dsimp only
  rw [hn, show minpoly mps (ops n) 0 0 _ = some (sf, p) from e1]
  dsimp only
  rw [i1.mexp, e4']
  cases b with
  | false =>
    refine .inl ⟨?_, irr, g2, ?_⟩
    · rw [hL]
      rintro ⟨f, h1, h2, h3⟩
      exact e5 rfl f h1 h2 h3
    · have h0 : irr ≠ 0 := by
        rintro rfl
        exact e2.1 (zero_dvd_iff.1 g2)
      dsimp only
      rw [Period.deg_of_ne h0]
      unfold decInt
      rw [if_neg (by omega)]
      simp
  | true =>
    obtain ⟨k1, k2, k3, k4⟩ := e6 rfl
    obtain ⟨r, r1, r2, r3, r4, r5⟩ := getLCMPolyD_correct hm hR (by decide) (s := sf) ⟨i1, i2⟩ i3 (lcm := p) e3
    dsimp only
    rw [r1]
    obtain ⟨q1, q2, -⟩ := (r5 r).1 (dvd_refl _)
    refine .inr ⟨hL.2 ⟨irr, k1, k2, k3⟩, irr, r, k1, k2, (large_root (mexp := l.mexp) hn0 hp irr).1 (hsp ▸ k4), k3, q1, r2, r3,
      ?_, ?_, rfl⟩
    · -- the lungs determine the state
      have hfin := M_finite (rops n l.mexp).bitSize (unit n)
      have hr := restrict hR.toLinGen (M (rops n l.mexp).bitSize (unit n)) hR.closed
      have hT := inj_restrict hR
      have hz : aeval (T n ⟨(seed w l.gen).param, 0, 2⟩) r (den n sf) = 0 := by
        refine obs (c := ⟨(seed w l.gen).param, 0, 2⟩) hs.pos_pos hs.pos hs.sl1_pos _ (aeval_M hR r i3) fun i j hj => ?_
        have h1 := q2 (128 - 1 - j) (by omega)
        rw [lungAt_eq hr (fun s hs => parity_restrict hR s hs) ⟨⟨i1, i2⟩, i3⟩ (by omega)] at h1
        have h1' : Ann r (outSeq (T n ⟨(seed w l.gen).param, 0, 2⟩) ((coord 128 (128 - 1 - j) (P n)).comp (T n ⟨(seed w l.gen).param, 0, 2⟩))
            (denL (M (rops n l.mexp).bitSize (unit n)) (den n) sf : S n)) := by
          rw [← outSeq_restrict hR.closed]; exact h1
        rw [denL_val i3, ann_iff, aeval_outSeq] at h1'
        have h2 := congrFun h1' i
        have h3 : P n (T n ⟨(seed w l.gen).param, 0, 2⟩ ((T n ⟨(seed w l.gen).param, 0, 2⟩ ^ i)
          (aeval (T n ⟨(seed w l.gen).param, 0, 2⟩) r (den n sf)))) (128 - 1 - (128 - 1 - j)) = 0 := h2
        rw [pow_succ', Module.End.mul_apply]
        rwa [show 128 - 1 - (128 - 1 - j) = j by omega] at h3
      obtain ⟨p', c1, -⟩ := minpoly_dim hm hr (s := seed w l.gen) ⟨⟨hs, rfl⟩, hsM⟩ (pos := 0) (by decide) (finrank_M hR).le
      have c2 := c1.symm.trans e1
      rw [Option.some.injEq, Prod.mk.injEq] at c2
      obtain ⟨hsf, -⟩ := c2
      have hz' : aeval (T n ⟨(seed w l.gen).param, 0, 2⟩) r (den n (seed w l.gen)) = 0 := by
        have hd := (stateAt_spec hr (g := seed w l.gen) ⟨⟨hs, rfl⟩, hsM⟩ (2 * (rops n l.mexp).bitSize)).2
        rw [hsf] at hd
        rw [← denL_val hsM, ← aeval_restrict hR.closed, Submodule.coe_eq_zero, ← aeval_pow_eq_zero hT r
          (2 * (rops n l.mexp).bitSize), ← hd, ← Submodule.coe_eq_zero, aeval_restrict hR.closed, denL_val i3]
        exact hz
      have h4 := congrArg Prod.fst hz'
      rw [aeval_fst ⟨(seed w l.gen).param, 0, 2⟩ r] at h4
      rw [← hsp]
      exact h4
    · intro q hq
      refine r4 q fun x hx => ?_
      obtain ⟨x1, x2⟩ := (mem_M (mexp := l.mexp) hn0 x).1 hx
      have : x = (x.1, 0) := Prod.ext rfl x2
      rw [this]
      show aeval (T n ⟨(seed w l.gen).param, 0, 2⟩) q _ = 0
      rw [hsp]
      rw [aeval_low hp q x1, hq _ x1]
      rfl

/-- **C99.**  The first polynomial printed depends only on the parameters, not on the seed. -/
theorem oldFormat_seed (hm : MinPolySeqSpec mps) (w w' : W128) {l : Fields} (h1 : 336 ≤ l.mexp) (h3 : l.mexp < 2 ^ 30)
    (hn : (l.mexp - 128) / 104 + 1 = n) (hp : ParOK n l.param) (rest rest' : List Char)
    (hw : HasLarge n l.mexp (seed w l.gen)) (hw' : HasLarge n l.mexp (seed w' l.gen)) :
    ∃ f r r' : (ZMod 2)[X], Irreducible f ∧ f.natDegree = l.mexp ∧
      oldFormat mps w (getString l ++ rest) = some (oldHeader l (n * 104 + 128) ++ (printBinary f ++ printBinary r), false) ∧
      oldFormat mps w' (getString l ++ rest') = some (oldHeader l (n * 104 + 128) ++ (printBinary f ++ printBinary r'), false) := by
  obtain ⟨p, -, ⟨h, -⟩ | ⟨-, f, r, f1, f2, f3, -, -, -, -, -, -, e⟩⟩ := oldFormat_correct hm w h1 h3 hn hp rest
  · exact absurd hw h
  obtain ⟨p', -, ⟨h, -⟩ | ⟨-, f', r', f1', f2', f3', -, -, -, -, -, -, e'⟩⟩ := oldFormat_correct hm w' h1 h3 hn hp rest'
  · exact absurd hw' h
  have := large_unique h1 hn hp f1 f2 f3 f1' f2' f3'
  subst this
  exact ⟨f', r, r', f1, f2, e, e'⟩

/-- **C99.**  On a line that dSFMTdc printed the program with the seed 1 (and nothing else in the seed word) does not fail. -/
theorem oldFormat_good (hm : MinPolySeqSpec mps) (h1 : 336 ≤ mexp) (h3 : mexp < 2 ^ 30) (hn : (mexp - 128) / 104 + 1 = n)
    {l : Line} (hl : GoodLine n mexp l) : ∃ f r : (ZMod 2)[X], Irreducible f ∧ f.natDegree = mexp ∧
      oldFormat mps (mk32 1 0 0 0) l.text =
        some (oldHeader l.toFields (n * 104 + 128) ++ (printBinary f ++ printBinary r), false) := by
  have hone := hl.one
  obtain ⟨hme, hp, -, -⟩ := hl.toGoodFields
  subst hme
  obtain ⟨p, -, ⟨h, -⟩ | ⟨-, f, r, f1, f2, -, -, -, -, -, -, -, e⟩⟩ := oldFormat_correct hm (mk32 1 0 0 0) h1 h3 hn hp (decInt l.delta52)
  · exact absurd hone h
  exact ⟨f, r, f1, f2, e⟩

/-- The line of exponent 1279 that dSFMTdc finds. -/
example : ∃ mps, ∃ l : Line, l.param = P1279 ∧ ∃ f r : (ZMod 2)[X], Irreducible f ∧ f.natDegree = 1279 ∧
    oldFormat mps (mk32 1 0 0 0) l.text = some (oldHeader l.toFields 1376 ++ (printBinary f ++ printBinary r), false) := by
  obtain ⟨mps, hm⟩ := minPolySeqSpec_sat
  obtain ⟨kernel, hK⟩ := exists_kernel
  obtain ⟨xgcd, hX⟩ := exists_xgcd
  obtain ⟨l, -, h1, h2⟩ := finds_dsfmt1279 hm hK hX (fuel := 1377) (by decide) ⟨fun _ => 0, fun _ => 0, 0⟩ (fun i => src1279.getD i 0) fun _ _ => rfl
  exact ⟨mps, l, h1, oldFormat_good (n := 12) hm (by decide) (by decide) (by decide) h2⟩

/-- The text of `1 + X^2`. -/
example : printBinary (X ^ 2 + 1 : (ZMod 2)[X]) = "101deg=2\n".toList := by
  have h2 : (X ^ 2 + 1 : (ZMod 2)[X]).natDegree = 2 := by compute_degree!
  have h0 : (X ^ 2 + 1 : (ZMod 2)[X]) ≠ 0 := by
    intro h; rw [h, natDegree_zero] at h2; omega
  unfold printBinary
  rw [Period.deg_of_ne h0, h2]
  have c1 : (X ^ 2 + 1 : (ZMod 2)[X]).coeff 1 = 0 := by simp [coeff_X_pow, coeff_one]
  have c0 : (X ^ 2 + 1 : (ZMod 2)[X]).coeff 0 = 1 := by simp [coeff_X_pow]
  have c2 : (X ^ 2 + 1 : (ZMod 2)[X]).coeff 2 = 1 := by simp [coeff_X_pow, coeff_one]
  rw [if_neg (by decide), show ((2 : ℕ) + 1 : ℤ).toNat = 3 from rfl]
  simp only [binLoop, c0, c1, c2, zero_add, Nat.reduceAdd]
  decide +kernel

end MTT.DSFMT
