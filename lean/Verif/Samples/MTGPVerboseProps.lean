import Verif.Samples.MTGPVerbose
import Verif.Samples.MTGPDCProps
import Verif.Samples.MT2VerboseProps
import Verif.Samples.SearchTextProps

/-!
# C110 for `MTGP32dc -v`
-/

namespace MTT.MTGP

open Polynomial Text SearchText PIS Search Temper Verbose

variable {n r : ℕ}

theorem rev_inv {s : St} (hs : Inv n r s) (b : Bool) : Inv n r { s with rev := b } :=
  ⟨hs.size, hs.mexp, hs.rlt, hs.idx, hs.mask, hs.pos2, hs.posn, hs.p, hs.tp⟩

theorem pbp_reset (J : Junk) (mexp : ℕ) (P : PBPar) (fuel : ℕ) (s : St) :
    partialBitPattern (temperOps J mexp) P fuel s = partialBitPattern (temperOps J mexp) P fuel { s with rev := false } := by
  unfold partialBitPattern
  dsimp only
  cases P.lsb <;> rfl

theorem table_sum (J : Junk) (veq : ℕ → ℕ) (mexp : ℕ) (g : St) : ((vops J mexp).table veq g).map Prod.snd = measure J 32 g := by
  have h := sum_any (ops g.mexp) Util.calc1posWrap32 (clone J.cmask g) 32 g.mexp (32 * ((32 + 1) * g.mexp) + 32 + 1) veq J.veq
  have e1 : (vops J mexp).table veq g = match getAllEquidist (ops g.mexp) Util.calc1posWrap32 (clone J.cmask g) 32 g.mexp
    (32 * ((32 + 1) * g.mexp) + 32 + 1) veq with | .ok r => some (r.veq, r.sum) | .error _ => none := rfl
  unfold measure
  rw [e1]
  revert h
  generalize getAllEquidist (ops g.mexp) Util.calc1posWrap32 (clone J.cmask g) 32 g.mexp (32 * ((32 + 1) * g.mexp) + 32 + 1) veq = x
  generalize getAllEquidist (ops g.mexp) Util.calc1posWrap32 (clone J.cmask g) 32 g.mexp (32 * ((32 + 1) * g.mexp) + 32 + 1) J.veq = y
  intro h
  cases x <;> cases y <;> simpa [Except.toOption] using h

theorem keep (J : Junk) {mexp : ℕ} (hm : mexp + r = 32 * n) (P : PBPar) (hP : P.bitLen = 32)
    (hn : P.paramNum = 4) (hL : P.tryLen ≤ 32) (h1 : 1 ≤ P.step) (h31 : P.step < 31) {g g' : St} (hg : Inv n r g)
    (h : partialBitPattern (temperOps J mexp) P (P.tryLen + 1) g = some g') :
    Inv n r g' ∧ Inv n r (setReverse g') ∧ resetReverse (setReverse g') = g' := by
  rw [pbp_reset] at h
  obtain ⟨t, t1, t2, t3, -⟩ := st_spec J hm P hP hn hL h1 h31 _ (rev_inv hg false) rfl
  rw [t1] at h
  injection h with h
  subst h
  have hr : t.rev = false := by rw [t2]
  refine ⟨t3, rev_inv t3 true, ?_⟩
  cases t; cases hr; rfl

/-- The hypotheses of `rtSearch_same` hold of `mtgp32`. -/
theorem honest (J : Junk) {mexp : ℕ} (hm : mexp + r = 32 * n) :
    Honest (vops J mexp) (fun vb => partialBitPatternV (temperOps J mexp) st32 24 vb)
      (fun vb => partialBitPatternV (temperOps J mexp) stlsb32 10 vb) true (partialBitPattern (temperOps J mexp) st32 24)
      (partialBitPattern (temperOps J mexp) stlsb32 10) (measure J 32) (Inv n r) where
  same1 vb g := partialBitPattern_same _ _ _ vb g
  same2 vb g := partialBitPattern_same _ _ _ vb g
  quiet1 g _ h := partialBitPattern_quiet _ _ _ g h
  quiet2 g _ h := partialBitPattern_quiet _ _ _ g h
  table veq g := table_sum J veq mexp g
  total g hg h := by
    obtain ⟨d, h1, -⟩ := measure_spec J hg
    rw [h] at h1; cases h1
  keep1 g g' hg h := (keep J hm st32 rfl rfl (by decide) (by decide) (by decide) hg h).1
  keep2 g g' hg h := keep J hm stlsb32 rfl rfl (by decide) (by decide) (by decide) hg h
  str _ _ := rfl

/-! ### Specification -/

/-- What `MTGP32dc` writes for one id: with `-v` the time of the start, the exponent and the identifier, then the text `o` of the
search; before the first line the header; the line. -/
def entryText (vb first : Bool) (tStart : List Char) (mexp : ℕ) (id : BitVec 32) (o : Out) (l : Line) : Out :=
  (match vb with
    | true => [(.cout, "search start at ".toList ++ tStart), (.cout, "mexp:".toList ++ num mexp ++ "\n".toList),
        (.cout, "id:".toList ++ num id.toNat ++ "\n".toList)]
    | false => []) ++ o ++
  (match first with
    | true => [(.cout, "#sha1, mexp, type, id, pos, sh1, sh2, tbl_0, tbl_1, tbl_2, tbl_3,tmp_0, tmp_1, tmp_2, tmp_3, mask\n".toList)]
    | false => []) ++ [(.cout, row l.cells)]

variable {mps : MPS} {prim : ℕ → (ZMod 2)[X] → Option Bool}

/-- The search gives the same with and without `-v`. -/
theorem allSearchV_same (hmps : MinPolySeqSpec mps) {mexp : ℕ} (hprim : PrimOK prim mexp) (hm : mexp + r = 32 * n) (hr : r < 32)
    (hsz : SizeOK n) (hn : 1 < n) {id : BitVec 32} (J : Junk) (vb : Bool) (c : List Char × List Char × List Char) {fuel : ℕ}
    (hfuel : fuel ≤ 214748) (g : St) (hg : SInv n r id { g with pos := 2 }) (f : ℕ → BitVec 32) :
    (allSearchV mps prim J vb c fuel mexp g f).map Prod.fst = allSearch mps prim J fuel mexp g f ∧
      (vb = false → ∀ x, allSearchV mps prim J vb c fuel mexp g f = some x → x.2 = []) := by
  have F := family hm hr hsz hn id
  cases vb with
  | true =>
    refine ⟨(rtSearch_same (honest J hm) false c.1 c.2.1 c.2.2 J.veq hfuel g f fun b st h => ?_).1, fun h => by cases h⟩
    have h' := findLoop_ret_congr (s' := { g with pos := 2 }) (fun src => by
      show (setUpParam _ _ _ _ _ g).map _ = Option.map _ _
      rw [← setUpParam_pos _ _ _ _ _ g 2]) (by show 1 ≤ 1000 * mexp; omega) h
    exact ((findLoop_spec (P := Par) F hmps hprim _ fuel _ hg h').2 b st rfl).2.1.inv
  | false =>
    unfold allSearchV allSearch
    rw [rtSearch_quiet (honest J hm), Option.map_map]
    have hid : (Prod.fst ∘ fun r : RTRes St (ℕ → BitVec 32) => (r, ([] : Out))) = _root_.id := rfl
    rw [hid, Option.map_id, _root_.id]
    refine ⟨rfl, fun _ x hx => ?_⟩
    obtain ⟨r, -, rfl⟩ := Option.map_eq_some_iff.1 hx
    rfl

/-- The string of the parameters in the messages of the search is the line without the weight and delta. -/
theorem paramString_row (o : RTOut St (ℕ → BitVec 32)) :
    paramString o.rand ++ num o.weight ++ ",".toList ++ num o.delta ++ "\n".toList = row (lineOf o).cells := by
  have h := text_cells (lineOf o)
  unfold row
  rw [← h, ← dec_num, ← decInt_num]
  unfold paramString Line.text lineOf
  simp only [List.append_assoc]
  rfl

theorem indexedSearchV_same (hmps : MinPolySeqSpec mps) {mexp : ℕ} (hprim : PrimOK prim mexp) (h32 : mexp % 32 ≠ 0)
    (hsz : SizeOK (mexp / 32 + 1)) (J : Junk) (vb : Bool) (c : List Char × List Char × List Char) (tStart : List Char) {fuel : ℕ}
    (hfuel : fuel ≤ 214748) (id : BitVec 32) (first : Bool) (f : ℕ → BitVec 32) :
    (indexedSearchV mps prim J vb c tStart fuel mexp id first f).map (Option.map Prod.fst) =
      indexedSearch mps prim J fuel mexp id f ∧
    ∀ l o, indexedSearchV mps prim J vb c tStart fuel mexp id first f = some (some (l, o)) →
      ∃ g o' x, ctor mexp id J.pos J.sh1 J.sh2 J.mask J.state = some g ∧
        allSearchV mps prim J vb c fuel mexp g f = some (.found x, o') ∧ l = lineOf x ∧
        o = entryText vb first tStart mexp id o' l ∧ (vb = false → o' = []) := by
  obtain ⟨n, hn⟩ : ∃ n, n = mexp / 32 + 1 := ⟨_, rfl⟩
  obtain ⟨r, hr⟩ : ∃ r, r = 32 - mexp % 32 := ⟨_, rfl⟩
  have hn2 : 3 < n := by
    rcases hsz with ⟨h1, h2⟩ | ⟨h1, -⟩ <;> omega
  have hm : mexp + r = 32 * n := by omega
  have hr32 : r < 32 := by omega
  rw [← hn] at hsz
  obtain ⟨g, c1, c2, c3, c4, c5, c6, c7, c8, c9⟩ := ctor_spec mexp id J.pos J.sh1 J.sh2 J.mask J.state h32
  have hg : SInv n r id { g with pos := 2 } :=
    ⟨⟨c4.trans hn.symm, by show g.mexp + r = _; rw [c2]; exact hm, hr32, by show g.idx < n; omega,
      by show g.mask = _; rw [c6, hr], le_refl 2, by show 2 < n; omega, fun i _ => c8 i, fun i _ => c9 i⟩, c7, c3⟩
  obtain ⟨s1, s2⟩ := allSearchV_same hmps hprim hm hr32 hsz (by omega) J vb c hfuel g hg f
  unfold indexedSearchV indexedSearch
  rw [c1]
  dsimp only
  rw [← s1]
  cases hv : allSearchV mps prim J vb c fuel mexp g f with
  | none => exact ⟨rfl, fun l o h => by cases h⟩
  | some x =>
    obtain ⟨x1, o'⟩ := x
    cases x1 with
    | undef => exact ⟨rfl, fun l o h => by cases h⟩
    | threw => exact ⟨rfl, fun l o h => by cases h⟩
    | found x =>
      refine ⟨rfl, fun l o h => ⟨g, o', x, rfl, hv, ?_, ?_, fun h => s2 h _ hv⟩⟩
      · cases h; rfl
      · cases h
        unfold entryText
        rw [← paramString_row, decInt_num, dec_num, dec_num, dec_num]
        cases vb <;> cases first <;> rfl

/-- What is written for the ids `id`, `id + 1`, ...: the texts of the searches with the lines they lead to. -/
def entries (vb : Bool) (t : ℕ → (List Char × List Char × List Char) × List Char) (mexp : ℕ) :
    BitVec 32 → Bool → List (Out × Line) → Out
  | _, _, [] => []
  | id, first, (o, l) :: calls =>
    entryText vb first (t calls.length).2 mexp id o l ++ entries vb t mexp (id + 1) false calls

/-- The texts and lines belong to searches that start with a new object of the class each. -/
def IsCalls (mps : MPS) (prim : ℕ → (ZMod 2)[X] → Option Bool) (J : ℕ → Junk) (vb : Bool)
    (t : ℕ → (List Char × List Char × List Char) × List Char) (fuel mexp : ℕ) (f : ℕ → BitVec 32) :
    BitVec 32 → List (Out × Line) → Prop
  | _, [] => True
  | id, (o, l) :: calls => (∃ g x, ctor mexp id (J calls.length).pos (J calls.length).sh1 (J calls.length).sh2 (J calls.length).mask
        (J calls.length).state = some g ∧
      allSearchV mps prim (J calls.length) vb (t calls.length).1 fuel mexp g f = some (.found x, o) ∧ l = lineOf x) ∧
    IsCalls mps prim J vb t fuel mexp f (id + 1) calls

theorem lines_zero : ∀ (i : ℕ) (L : List Line), lines (fun _ => 0) i L = some (L.flatMap fun l => row l.cells)
  | _, [] => rfl
  | i, l :: L => by
    rw [lines, if_pos rfl, lines_zero (i + 1) L, List.flatMap_cons, Option.map_some, text_cells]
    rfl

theorem entries_quiet (t : ℕ → (List Char × List Char × List Char) × List Char) (mexp : ℕ) :
    ∀ (id : BitVec 32) (first : Bool) (calls : List (Out × Line)), (∀ q ∈ calls, q.1 = []) →
    (entries false t mexp id first calls).flatMap Prod.snd =
      (if first = true ∧ calls ≠ [] then '#' :: header ++ ['\n'] else []) ++ (calls.map Prod.snd).flatMap fun l => row l.cells
  | _, first, [], _ => by simp [entries]
  | id, first, (o, l) :: calls, h => by
    have ho : o = [] := h (o, l) (by simp)
    rw [entries, List.flatMap_append, entries_quiet t mexp _ _ calls fun q hq => h q (List.mem_cons_of_mem _ hq),
      if_neg (by simp), List.nil_append, List.map_cons, List.flatMap_cons, ho]
    unfold entryText
    cases first with
    | true =>
      rw [if_pos ⟨rfl, by simp⟩]
      dsimp only
      rw [List.nil_append, List.nil_append, List.singleton_append, List.flatMap_cons, List.flatMap_cons, List.flatMap_nil]
      dsimp only
      rw [List.append_nil, List.append_assoc]
      rfl
    | false =>
      rw [if_neg (by simp)]
      simp

theorem dcMainV_calls (hmps : MinPolySeqSpec mps) {mexp : ℕ} (hprim : PrimOK prim mexp) (h32 : mexp % 32 ≠ 0)
    (hsz : SizeOK (mexp / 32 + 1)) (J : ℕ → Junk) (vb : Bool) (t : ℕ → (List Char × List Char × List Char) × List Char) {fuel : ℕ}
    (hfuel : fuel ≤ 214748) (f : ℕ → BitVec 32) (count : ℕ) (id : BitVec 32) (first : Bool) :
    (dcMainV mps prim J vb t fuel mexp f count id first).map (Option.map Prod.fst) = dcMain mps prim J fuel mexp f count id ∧
    ∀ L o, dcMainV mps prim J vb t fuel mexp f count id first = some (some (L, o)) →
      ∃ calls : List (Out × Line), calls.length = count ∧ IsCalls mps prim J vb t fuel mexp f id calls ∧ L = calls.map Prod.snd ∧
        o = entries vb t mexp id first calls ∧ (vb = false → ∀ q ∈ calls, q.1 = []) := by
  induction count generalizing id first with
  | zero =>
    refine ⟨rfl, fun L o h => ?_⟩
    cases h
    exact ⟨[], rfl, trivial, rfl, rfl, fun _ q hq => absurd hq (by simp)⟩
  | succ count ih =>
    obtain ⟨s1, s2⟩ := indexedSearchV_same hmps hprim h32 hsz (J count) vb (t count).1 (t count).2 hfuel id first f
    rw [dcMainV, dcMain, ← s1]
    cases hv : indexedSearchV mps prim (J count) vb (t count).1 (t count).2 fuel mexp id first f with
    | none => exact ⟨rfl, fun l o h => by cases h⟩
    | some x =>
      cases x with
      | none => exact ⟨rfl, fun l o h => by cases h⟩
      | some x =>
        obtain ⟨l, o⟩ := x
        obtain ⟨g, o', x, k1, k2, k3, k4, k5⟩ := s2 l o hv
        obtain ⟨i1, i2⟩ := ih (id + 1) false
        dsimp only [Option.map_some]
        rw [← i1]
        cases hrest : dcMainV mps prim J vb t fuel mexp f count (id + 1) false with
        | none => exact ⟨rfl, fun L o h => by cases h⟩
        | some y =>
          cases y with
          | none => exact ⟨rfl, fun L o h => by cases h⟩
          | some y =>
            obtain ⟨L', o2⟩ := y
            obtain ⟨calls, j1, j2, j3, j4, j5⟩ := i2 L' o2 hrest
            refine ⟨rfl, fun L o h => ?_⟩
            cases h
            refine ⟨(o', l) :: calls, by rw [List.length_cons, j1], ⟨⟨g, x, by rw [j1]; exact k1, by rw [j1]; exact k2, k3⟩, j2⟩,
              by rw [j3]; rfl, ?_, fun h q hq => ?_⟩
            · rw [entries, j1, ← j4, ← k4]
            · rcases List.mem_cons.1 hq with rfl | hq
              · exact k5 h
              · exact j5 h q hq

/-- **C110.**  `MTGP32dc -v` finds the same parameters as `MTGP32dc`, for every exponent that the options accept, as long as no
search makes more than 214748 turns of its outer loop.  Its text consists of one entry for each identifier. -/
theorem dcMainV_same (hmps : MinPolySeqSpec mps) {mexp : ℕ} (hprim : PrimOK prim mexp) (h32 : mexp % 32 ≠ 0)
    (hsz : SizeOK (mexp / 32 + 1)) (J : ℕ → Junk) (vb : Bool) (t : ℕ → (List Char × List Char × List Char) × List Char) {fuel : ℕ}
    (hfuel : fuel ≤ 214748) (f : ℕ → BitVec 32) (count : ℕ) (id : BitVec 32) (first : Bool) :
    (dcMainV mps prim J vb t fuel mexp f count id first).map (Option.map Prod.fst) = dcMain mps prim J fuel mexp f count id ∧
    ∀ L o, dcMainV mps prim J vb t fuel mexp f count id first = some (some (L, o)) →
      (vb = false → first = true → (shown (fun _ => 0) L).map (·.text) = some (o.flatMap Prod.snd)) ∧
      ∃ calls : List (Out × Line), calls.length = count ∧ IsCalls mps prim J vb t fuel mexp f id calls ∧ L = calls.map Prod.snd ∧
        o = entries vb t mexp id first calls := by
  obtain ⟨h1, h2⟩ := dcMainV_calls hmps hprim h32 hsz J vb t hfuel f count id first
  refine ⟨h1, fun L o h => ?_⟩
  obtain ⟨calls, k1, k2, k3, k4, k5⟩ := h2 L o h
  refine ⟨fun hv hf => ?_, calls, k1, k2, k3, k4⟩
  subst hv hf
  rw [k4, entries_quiet t mexp id true calls (k5 rfl)]
  unfold shown
  rw [lines_zero, Option.map_some, Option.map_some, ← k3]
  dsimp only
  cases calls with
  | nil => rw [k3]; rfl
  | cons q calls => rw [k3, if_pos (show true = true ∧ q :: calls ≠ [] from ⟨rfl, by simp⟩)]; rfl

/-- The hypotheses are met by each exponent the options accept and the primitivity test of the code. -/
example (hmps : MinPolySeqSpec mps) {mexp : ℕ} (hmexp : mexp ∈ [3217, 4423, 11213, 23209, 44497]) (J : ℕ → Junk)
    (t : ℕ → (List Char × List Char × List Char) × List Char) (f : ℕ → BitVec 32) (count : ℕ) (id : BitVec 32) :
    (dcMainV mps (Period.primitivityOp none) J true t 1000 mexp f count id true).map (Option.map Prod.fst) =
      dcMain mps (Period.primitivityOp none) J 1000 mexp f count id := by
  have h1 : ∀ e ∈ [3217, 4423, 11213, 23209, 44497], e ∈ [3217, 4423, 11213, 23209, 44497, 110503, 216091] ∧
    e ∈ Period.mersenneExponent ∧ e ≤ 216091 := by decide +kernel
  obtain ⟨t1, t2, t3⟩ := h1 mexp hmexp
  obtain ⟨h2, h3⟩ := sizeOK_accepted mexp t1
  exact (dcMainV_same hmps (primOK_mersenne (Mexp.table_prime mexp t2 t3)) h3 h2 J true t (by omega) f count id true).1

end MTT.MTGP
