import Verif.Samples.GetoptLongLemmas
import Verif.Samples.ProgramsProps
import Verif.Samples.EquidistMainProps

/-!
# C105: the search programs and calc_equidist from their arguments
-/

namespace MTT.GetoptLong

open Getopt (St)

/-! ### Every command line can be read, in one way only -/

theorem split_flags (T : Table) : ∀ l : List Char, ∃ fs tl, l = fs ++ tl ∧ Flags T fs ∧
    (tl = [] ∨ ∃ c more, tl = c :: more ∧ T.short.lookup c ≠ some .no)
  | [] => ⟨[], [], rfl, by simp [Flags], .inl rfl⟩
  | c :: l => by
    by_cases hc : T.short.lookup c = some .no
    · obtain ⟨fs, tl, rfl, h1, h2⟩ := split_flags T l
      refine ⟨c :: fs, tl, rfl, ?_, h2⟩
      intro f hf
      rcases List.mem_cons.1 hf with rfl | hf
      · exact hc
      · exact h1 f hf
    · exact ⟨[], c :: l, rfl, by simp [Flags], .inr ⟨c, l, rfl, hc⟩⟩

theorem split_name : ∀ body : List Char, ('=' ∉ body) ∨ ∃ name v, body = name ++ '=' :: v ∧ '=' ∉ name
  | [] => .inl (by simp)
  | c :: l => by
    by_cases hc : c = '='
    · exact .inr ⟨[], l, by rw [hc]; rfl, by simp⟩
    · rcases split_name l with h | ⟨name, v, rfl, h⟩
      · left; simp only [List.mem_cons, not_or]; exact ⟨fun e => hc e.symm, h⟩
      · right
        refine ⟨c :: name, v, rfl, ?_⟩
        simp only [List.mem_cons, not_or]; exact ⟨fun e => hc e.symm, h⟩

/-- **C105.**  Every command line can be read. -/
theorem reads_total (T : Table) : ∀ args, ∃ items res, Reads T args items res := by
  intro args
  induction hn : args.length using Nat.strong_induction_on generalizing args with
  | _ n ih =>
    subst hn
    cases args with
    | nil => exact ⟨_, _, .nil⟩
    | cons a r =>
      have rec1 : ∃ items res, Reads T r items res := ih _ (by simp) r rfl
      obtain ⟨e, o, hr⟩ := rec1
      by_cases hop : a.head? ≠ some '-' ∨ a = ['-']
      · exact ⟨_, _, .operand hop hr⟩
      · simp only [not_or, not_not] at hop
        obtain ⟨b, rfl⟩ : ∃ b, a = '-' :: b := by
          cases a with
          | nil => simp at hop
          | cons c b =>
            have := hop.1
            simp only [List.head?_cons, Option.some.injEq] at this
            exact ⟨b, by rw [this]⟩
        have hb : b ≠ [] := by rintro rfl; exact hop.2 rfl
        by_cases hd : b.head? = some '-'
        · obtain ⟨body, rfl⟩ : ∃ body, b = '-' :: body := by
            cases b with
            | nil => cases hd
            | cons c body =>
              simp only [List.head?_cons, Option.some.injEq] at hd
              exact ⟨body, by rw [hd]⟩
          by_cases hbody : body = []
          · rw [hbody]; exact ⟨_, _, .stop r⟩
          rcases split_name body with hn | ⟨name, v, rfl, hn⟩
          · by_cases hl : ∃ l, Resolves T body l
            · obtain ⟨l, hl⟩ := hl
              by_cases ha : l.arg = .required
              · cases r with
                | nil => exact ⟨_, _, .badLongEnd hbody hn hl ha⟩
                | cons v r =>
                  obtain ⟨e, o, hr⟩ := ih r.length (by simp) r rfl
                  exact ⟨_, _, .longNext hbody hn hl ha hr⟩
              · exact ⟨_, _, .long hbody hn hl ha hr⟩
            · have := Reads.badName (T := T) (v := []) (r := r) hn (fun l h => hl ⟨l, h⟩) (.inl ⟨rfl, hbody⟩)
              rw [List.append_nil] at this
              exact ⟨_, _, this⟩
          · by_cases hl : ∃ l, Resolves T name l
            · obtain ⟨l, hl⟩ := hl
              by_cases ha : l.arg = .no
              · exact ⟨_, _, .badEq hn hl ha⟩
              · exact ⟨_, _, .longEq hn hl ha hr⟩
            · exact ⟨_, _, .badName hn (fun l h => hl ⟨l, h⟩) (.inr rfl)⟩
        · obtain ⟨fs, tl, rfl, hf, rfl | ⟨c, more, rfl, hc⟩⟩ := split_flags T b
          · rw [List.append_nil] at hb ⊢
            exact ⟨_, _, .flags hb hf hr⟩
          · cases hlk : T.short.lookup c with
            | none => exact ⟨_, _, .badLetter hf hlk fun h e => hd (by rw [h, e]; rfl)⟩
            | some k =>
              cases k with
              | no => exact absurd hlk hc
              | optional =>
                by_cases hm : more = []
                · rw [hm]; exact ⟨_, _, .without hf hlk hr⟩
                · exact ⟨_, _, .attached hf (.inr hlk) hm hr⟩
              | required =>
                by_cases hm : more = []
                · rw [hm]
                  cases r with
                  | nil => exact ⟨_, _, .badEnd hf hlk⟩
                  | cons v r =>
                    obtain ⟨e, o, hr⟩ := ih r.length (by simp) r rfl
                    exact ⟨_, _, .detached hf hlk hr⟩
                · exact ⟨_, _, .attached hf (.inl hlk) hm hr⟩

theorem reads_letters {T : Table} (h1 : T.short.lookup '?' = none) (h2 : ∀ l ∈ T.long, l.val ≠ '?') {args items res}
    (h : Reads T args items res) : ∀ i ∈ items, i.1 ≠ '?' := by
  have hs : ∀ {fs : List Char}, Flags T fs → ∀ i ∈ fs.map (fun f => ((f, none) : Item)), i.1 ≠ '?' := by
    intro fs hf i hi
    obtain ⟨f, hf', rfl⟩ := List.mem_map.1 hi
    rintro e
    have := hf f hf'
    rw [show f = '?' from e, h1] at this
    cases this
  have hc : ∀ {c : Char} {k}, T.short.lookup c = some k → c ≠ '?' := by
    rintro c k hk rfl
    rw [h1] at hk
    cases hk
  induction h with
  | nil => simp
  | stop => simp
  | operand _ _ ih => exact ih
  | flags _ hf _ ih =>
    intro i hi
    rcases List.mem_append.1 hi with hi | hi
    · exact hs hf i hi
    · exact ih i hi
  | attached hf hk _ _ ih =>
    intro i hi
    rcases List.mem_append.1 hi with hi | hi
    · exact hs hf i hi
    · rcases List.mem_cons.1 hi with rfl | hi
      · rcases hk with hk | hk <;> exact hc hk
      · exact ih i hi
  | detached hf hk _ ih =>
    intro i hi
    rcases List.mem_append.1 hi with hi | hi
    · exact hs hf i hi
    · rcases List.mem_cons.1 hi with rfl | hi
      · exact hc hk
      · exact ih i hi
  | without hf hk _ ih =>
    intro i hi
    rcases List.mem_append.1 hi with hi | hi
    · exact hs hf i hi
    · rcases List.mem_cons.1 hi with rfl | hi
      · exact hc hk
      · exact ih i hi
  | long _ _ hl _ _ ih =>
    intro i hi
    rcases List.mem_cons.1 hi with rfl | hi
    · exact h2 _ hl.1
    · exact ih i hi
  | longEq _ hl _ _ ih =>
    intro i hi
    rcases List.mem_cons.1 hi with rfl | hi
    · exact h2 _ hl.1
    · exact ih i hi
  | longNext _ _ hl _ _ ih =>
    intro i hi
    rcases List.mem_cons.1 hi with rfl | hi
    · exact h2 _ hl.1
    · exact ih i hi
  | badLetter hf _ _ => exact hs hf
  | badEnd hf _ => exact hs hf
  | badName => simp
  | badEq => simp
  | badLongEnd => simp

/-- **C105.**  It can be read in one way only. -/
theorem reads_unique {T : Table} (hT : T.Ok) (h1 : T.short.lookup '?' = none) (h2 : ∀ l ∈ T.long, l.val ≠ '?') {args i1 i2 r1 r2}
    (a : Reads T args i1 r1) (b : Reads T args i2 r2) : i1 = i2 ∧ r1 = r2 := by
  let err : List Item → Bool := fun acc => decide (acc.getLast? = some ('?', none))
  have hbad : ∀ acc, err (acc ++ [id ('?', none)]) = true := fun acc => by simp [err]
  have key : ∀ {i r}, Reads T args i r → ∃ rest, deliver T id err (weight args) ⟨[], [], args⟩ [] = some (allOf id i r, rest) ∧
      (r = none ∨ r = some rest) := by
    intro i r h
    obtain ⟨p, rest, hp, hd, ho⟩ := good_reads (toEv := id) hT hbad h [] _ le_rfl [] (by simp [err])
    rw [List.nil_append] at hd ho
    refine ⟨rest, ?_, ?_⟩
    · rw [hd]
      congr 2
      rcases ho with ho | ⟨ho, -⟩
      · simp only [err, decide_eq_true_eq] at ho
        have hl : ('?', none) ∈ p := List.mem_of_getLast? ho
        obtain ⟨t, ht⟩ := hp
        by_cases htn : t = []
        · rw [← ht, htn, List.append_nil]
        · exfalso
          have hit := reads_letters h1 h2 h
          unfold allOf at ht
          rw [List.map_id] at ht
          split at ht
          · have hpi : p <+: i := by
              obtain ⟨t', x, rfl⟩ : ∃ t' x, t = t' ++ [x] := ⟨_, _, (List.dropLast_append_getLast htn).symm⟩
              rw [← List.append_assoc] at ht
              exact ⟨t', (List.append_inj' ht rfl).1⟩
            exact hit _ (hpi.subset hl) rfl
          · rw [List.append_nil] at ht
            exact hit _ (by rw [← ht]; exact List.mem_append_left _ hl) rfl
      · exact ho
    · rcases ho with ho | ⟨-, ho⟩
      · left
        cases r with
        | none => rfl
        | some o =>
          exfalso
          simp only [err, decide_eq_true_eq] at ho
          have := hp.subset (List.mem_of_getLast? ho)
          simp only [allOf, List.map_id, reduceCtorEq, if_false, List.append_nil] at this
          exact reads_letters h1 h2 h _ this rfl
      · right
        cases r with
        | none => cases ho
        | some o => simpa using ho
  obtain ⟨x, e1, e2⟩ := key a
  obtain ⟨y, e3, e4⟩ := key b
  rw [e1] at e3
  simp only [Option.some.injEq, Prod.mk.injEq] at e3
  obtain ⟨e3, rfl⟩ := e3
  have hlast : ∀ {i r}, Reads T args i r → (r = none ↔ (allOf id i r).getLast? = some ('?', none)) := by
    intro i r h
    cases r with
    | none => simp [allOf]
    | some o =>
      simp only [reduceCtorEq, false_iff, allOf, List.map_id, if_false, List.append_nil]
      intro hl
      exact reads_letters h1 h2 h _ (List.mem_of_getLast? hl) rfl
  have hn : r1 = none ↔ r2 = none := by rw [hlast a, hlast b, e3]
  have hr : r1 = r2 := by
    rcases e2 with e2 | e2
    · rw [e2, hn.1 e2]
    · rcases e4 with e4 | e4
      · rw [e4, hn.2 e4]
      · rw [e2, e4]
  refine ⟨?_, hr⟩
  subst hr
  unfold allOf at e3
  simpa using e3

/-! ### The programs -/

theorem obeyed_reads {ε : Type} {T : Table} {toEv : Item → ε} {err : List ε → Bool} (hT : T.Ok)
    (hbad : ∀ acc, err (acc ++ [toEv ('?', none)]) = true) (h0 : err [] = false) {args items res} (h : Reads T args items res) :
    ∃ d, obeyed T toEv err args = some d ∧
      (err d.1 = true ∧ d.1 <+: allOf toEv items res ∨ d.1 = items.map toEv ∧ res = some d.2) := by
  obtain ⟨p, rest, hp, hd, ho⟩ := good_reads (toEv := toEv) hT hbad h [] _ le_rfl [] h0
  rw [List.nil_append] at hd ho
  refine ⟨(p, rest), hd, ?_⟩
  rcases ho with ho | ⟨ho1, ho2⟩
  · exact .inl ⟨ho, hp⟩
  · right
    cases res with
    | none => cases ho2
    | some o => exact ⟨by rw [ho1]; simp [allOf], by simpa using ho2⟩

open Options Search Parity

theorem readOpts_append (step : Opts → Ev → Opts) (o : Opts) (p t : List Ev) :
    readOpts step o (p ++ t) = readOpts step (readOpts step o p) t := by unfold readOpts; rw [List.foldl_append]

theorem readOpts_error {step : Opts → Ev → Opts} {o : Opts} (h : o.error = true) : ∀ evs, readOpts step o evs = o
  | [] => rfl
  | e :: evs => by
    unfold readOpts
    rw [List.foldl_cons, if_pos h]
    exact readOpts_error h evs

theorem readOpts_prefix {step : Opts → Ev → Opts} {o : Opts} {p full : List Ev} (h : p <+: full)
    (he : (readOpts step o p).error = true) : readOpts step o full = readOpts step o p := by
  obtain ⟨t, rfl⟩ := h
  rw [readOpts_append, readOpts_error he]

theorem errAfter_bad {step : Opts → Ev → Opts} (hs : ∀ o, (step o .bad).error = true) (o : Opts) (acc : List Ev) :
    errAfter step o (acc ++ [.bad]) = true := by
  unfold errAfter
  rw [readOpts_append]
  show (if (readOpts step o acc).error = true then readOpts step o acc else step (readOpts step o acc) .bad).error = true
  split
  · assumption
  · exact hs _

/-- A program that looks at the options only through `readOpts`, and at the operands only if there was no error. -/
theorem run_args {β : Type} {T : Table} {toEv : Item → Ev} {step : Opts → Ev → Opts} {o : Opts} (hT : T.Ok)
    (hb : toEv ('?', none) = .bad) (hs : ∀ o, (step o .bad).error = true) (h0 : o.error = false) {P : List Ev → List (List Char) → β}
    (hP : ∀ e e' r r', readOpts step o e = readOpts step o e' → (readOpts step o e).error = true → P e r = P e' r')
    {args items res} (h : Reads T args items res) :
    (obeyed T toEv (errAfter step o) args).map (fun d => P d.1 d.2) = some (P (allOf toEv items res) (res.getD [])) := by
  obtain ⟨d, hd, ho⟩ := obeyed_reads (toEv := toEv) (err := errAfter step o) hT (fun acc => by rw [hb]; exact errAfter_bad hs o acc) h0 h
  rw [hd, Option.map_some]
  congr 1
  rcases ho with ⟨ho, hp⟩ | ⟨ho1, ho2⟩
  · exact hP _ _ _ _ (readOpts_prefix hp ho).symm ho
  · rw [ho2, ho1]
    simp [allOf]

theorem parseMexp_err {step : Opts → Ev → Opts} {allowed : List ℕ} {clock : BitVec 64} {canOpen : List Char → Bool} {e : List Ev}
    (h : (readOpts step (init clock 0 0) e).error = true) (r) : parseMexp step allowed clock canOpen e r = none := by
  unfold parseMexp
  cases r with
  | nil => rfl
  | cons a r => simp at h; simp [finish, readMexp, h]

theorem parseMt2_err {allowed : List ℕ} {junk : BitVec 32} {canOpen : List Char → Bool} {e : List Ev}
    (h : (readOpts stepMt2 (init (junk.setWidth 64) 0x7fffffff 0) e).error = true) (r) :
    parseMt2 allowed junk canOpen e r = none := by
  unfold parseMt2
  rcases r with _ | ⟨a, _ | ⟨b, r⟩⟩
  · rfl
  · rfl
  · simp at h; simp [finish, readMexp, h]

theorem parseMtgp_err {allowed : List ℕ} {canOpen : List Char → Bool} {e : List Ev}
    (h : (readOpts stepMtgp (init 0 0 0) e).error = true) (r) : parseMtgp allowed canOpen e r = none := by
  unfold parseMtgp
  rcases r with _ | ⟨a, _ | ⟨b, r⟩⟩
  · rfl
  · rfl
  · simp at h; simp [finish, h]

theorem parseTiny_err {limit : BitVec 32} {canOpen : List Char → Bool} {e : List Ev}
    (h : (readOpts (stepTiny limit) (init 0 10 limit) e).error = true) (r) : parseTiny limit canOpen e r = none := by
  unfold parseTiny
  rcases r with _ | ⟨b, r⟩
  · rfl
  · simp at h; simp [finish, h]

theorem tSeed_ok : tSeed.Ok := ⟨by decide, by decide⟩
theorem tFixed_ok : tFixed.Ok := ⟨by decide, by decide⟩
theorem tMt2_ok : tMt2.Ok := ⟨by decide, by decide⟩
theorem tMtgp_ok : tMtgp.Ok := ⟨by decide, by decide⟩
theorem tTiny_ok : tTiny.Ok := ⟨by decide, by decide⟩
theorem tEquiS_ok : tEquiS.Ok := ⟨by decide, by decide⟩
theorem tEquiD_ok : tEquiD.Ok := ⟨by decide, by decide⟩

instance (T : Table) (fs : List Char) : Decidable (Flags T fs) := inferInstanceAs (Decidable (∀ f ∈ fs, _))

/-- **C105.**  In every program a long option and its letter are the same: they give the same case of the `switch` and take an argument or not
alike; and every letter has a long name. -/
theorem long_short : ∀ T ∈ [tSeed, tFixed, tMt2, tMtgp, tTiny, tEquiS, tEquiD], (∀ l ∈ T.long, T.short.lookup l.val = some l.arg) ∧
    ∀ c ∈ T.short, ∃ l ∈ T.long, l.val = c.1 := by decide

/-- A word that is no option. -/
abbrev Word (a : List Char) : Prop := a.head? ≠ some '-' ∨ a = ['-']

theorem reads_words {T : Table} : ∀ {ops : List (List Char)}, (∀ a ∈ ops, Word a) → Reads T ops [] (some ops)
  | [], _ => .nil
  | a :: ops, h => .operand (h a (by simp)) (reads_words fun b hb => h b (by simp [hb]))

section programs

variable {mps : MPS} {kernel : KernelFn} {xgcd : DSFMT.XgcdFn} {fuel : ℕ} {clock : BitVec 64} {canOpen : List Char → Bool}
  {args : List (List Char)} {items : List Item} {res : Option (List (List Char))}

/-- **C105.**  sfmtdc with the arguments `args` does what C91 says about the options and operands that `args` stands for; a wrong option is an
option that is not known. -/
theorem sfmtdc_args (h : Reads tSeed args items res) (J : SFMT.Junk) : sfmtdcArgs mps kernel fuel clock canOpen args J =
    some (sfmtdc mps kernel fuel clock canOpen (items.map toEv ++ if res = none then [.bad] else []) (res.getD []) J) :=
  run_args (P := fun e r => sfmtdc mps kernel fuel clock canOpen e r J) tSeed_ok rfl (fun _ => rfl) rfl (by
    intro e e' r r' h1 h2
    unfold sfmtdc
    rw [parseMexp_err h2, parseMexp_err (h1 ▸ h2), h1]) h

/-- **C105.**  The same for sfmtdcfixed. -/
theorem sfmtdcfixed_args (h : Reads tSeed args items res) (J : SFMT.Junk) : sfmtdcfixedArgs mps kernel fuel clock canOpen args J =
    some (sfmtdcfixed mps kernel fuel clock canOpen (items.map toEv ++ if res = none then [.bad] else []) (res.getD []) J) :=
  run_args (P := fun e r => sfmtdcfixed mps kernel fuel clock canOpen e r J) tSeed_ok rfl (fun _ => rfl) rfl (by
    intro e e' r r' h1 h2
    unfold sfmtdcfixed
    rw [parseMexp_err h2, parseMexp_err (h1 ▸ h2), h1]) h

/-- **C105.**  The same for dSFMTdc. -/
theorem dsfmtdc_args (h : Reads tFixed args items res) (J : DSFMT.Junk) : dsfmtdcArgs mps kernel xgcd fuel clock canOpen args J =
    some (dsfmtdc mps kernel xgcd fuel clock canOpen (items.map toEv ++ if res = none then [.bad] else []) (res.getD []) J) :=
  run_args (P := fun e r => dsfmtdc mps kernel xgcd fuel clock canOpen e r J) tFixed_ok rfl (fun _ => rfl) rfl (by
    intro e e' r r' h1 h2
    unfold dsfmtdc
    rw [parseMexp_err h2, parseMexp_err (h1 ▸ h2), h1]) h

/-- **C105.**  The same for rmt64dc. -/
theorem rmt64dc_args (h : Reads tSeed args items res) (one : ℕ → Option (BitVec 64)) (junk : ℕ → BitVec 64) (veq : ℕ → ℕ)
    (junkPos : ℕ) (junkA : BitVec 64) (junkS : ℕ → BitVec 64) :
    rmt64dcArgs mps kernel fuel clock canOpen args one junk veq junkPos junkA junkS =
    some (rmt64dc mps kernel fuel clock canOpen (items.map toEv ++ if res = none then [.bad] else []) (res.getD []) one junk veq
      junkPos junkA junkS) :=
  run_args (P := fun e r => rmt64dc mps kernel fuel clock canOpen e r one junk veq junkPos junkA junkS) tSeed_ok rfl (fun _ => rfl)
    rfl (by
    intro e e' r r' h1 h2
    unfold rmt64dc
    rw [parseMexp_err h2, parseMexp_err (h1 ▸ h2), h1]) h

/-- **C105.**  The same for mt2. -/
theorem mt2_args (h : Reads tMt2 args items res) (veq : ℕ → ℕ) (turns junkPos : ℕ) (junkA junkSeed : BitVec 32)
    (junk : ℕ → BitVec 32) : mt2Args mps fuel canOpen args veq turns junkPos junkA junkSeed junk =
    some (mt2 mps fuel canOpen (items.map toEv ++ if res = none then [.bad] else []) (res.getD []) veq turns junkPos junkA junkSeed
      junk) :=
  run_args (P := fun e r => mt2 mps fuel canOpen e r veq turns junkPos junkA junkSeed junk) tMt2_ok rfl (fun _ => rfl) rfl (by
    intro e e' r r' h1 h2
    unfold mt2
    rw [parseMt2_err h2, parseMt2_err (h1 ▸ h2), h1]) h

/-- **C105.**  The same for MTGP32dc. -/
theorem mtgp32dc_args (h : Reads tMtgp args items res) (J : ℕ → MTGP.Junk) (rng : List Char → ℕ → BitVec 32) :
    mtgp32dcArgs mps fuel canOpen args J rng =
    some (mtgp32dc mps fuel canOpen (items.map toEv ++ if res = none then [.bad] else []) (res.getD []) J rng) :=
  run_args (P := fun e r => mtgp32dc mps fuel canOpen e r J rng) tMtgp_ok rfl (fun _ => rfl) rfl (by
    intro e e' r r' h1 h2
    unfold mtgp32dc
    rw [parseMtgp_err h2, parseMtgp_err (h1 ▸ h2), h1]) h

/-- **C105.**  The same for tinymt32dc. -/
theorem tinymt32dc_args (h : Reads tTiny args items res) (veq : ℕ → ℕ) : tinymt32dcArgs mps fuel canOpen args veq =
    some (tinymt32dc mps fuel canOpen (items.map toEvT ++ if res = none then [.bad] else []) (res.getD []) veq) :=
  run_args (P := fun e r => tinymt32dc mps fuel canOpen e r veq) tTiny_ok rfl (fun _ => rfl) rfl (by
    intro e e' r r' h1 h2
    unfold tinymt32dc
    rw [parseTiny_err h2, parseTiny_err (h1 ▸ h2), h1]) h

/-! ### calc_equidist -/

theorem equi_bad (hasR : Bool) (clock : BitVec 64) (acc : List EquidistMain.Ev) :
    (EquidistMain.read hasR (EquidistMain.init clock) (acc ++ [.bad])).error = true :=
  EquidistMain.read_bad (fun h => h .bad (by simp)) rfl rfl

/-- **C105.**  calc_equidist of sfmtdc, if the command line has no wrong option and no seed from 2^64 on: what C103 says. -/
theorem equidistS_args {ops : List (List Char)} (h : Reads tEquiS args items (some ops))
    (hf : ∀ e ∈ items.map toEvE, EquidistMain.Fine true e) (J : SFMT.Junk) (hi : BitVec 64) :
    equidistSArgs mps clock args J hi = some (SFMT.equidistMain mps J hi clock (items.map toEvE) ops.head?) := by
  obtain ⟨d, hd, ho⟩ := obeyed_reads (toEv := toEvE)
    (err := fun evs => (EquidistMain.read true (EquidistMain.init clock) evs).error) tEquiS_ok (equi_bad true clock) rfl h
  unfold equidistSArgs
  rw [hd, Option.map_some]
  rcases ho with ⟨ho, hp⟩ | ⟨ho1, ho2⟩
  · exfalso
    have hall : allOf toEvE items (some ops) = items.map toEvE := by simp [allOf]
    rw [hall] at hp
    have := (EquidistMain.read_good (fun e he => hf e (hp.subset he)) (o := EquidistMain.init clock) rfl rfl).1
    simp only [ho] at this
    simp at this
  · injection ho2 with ho2
    rw [ho1, ho2]

/-- **C105.**  The same for calc_equidist of dSFMTdc. -/
theorem equidistD_args {ops : List (List Char)} (h : Reads tEquiD args items (some ops))
    (hf : ∀ e ∈ items.map toEvE, EquidistMain.Fine false e) (veq52 : ℕ → ℤ) (hi : BitVec 64) :
    equidistDArgs mps clock args veq52 hi = some (DSFMT.equidistMain mps veq52 hi clock (items.map toEvE) ops.head?) := by
  obtain ⟨d, hd, ho⟩ := obeyed_reads (toEv := toEvE)
    (err := fun evs => (EquidistMain.read false (EquidistMain.init clock) evs).error) tEquiD_ok (equi_bad false clock) rfl h
  unfold equidistDArgs
  rw [hd, Option.map_some]
  rcases ho with ⟨ho, hp⟩ | ⟨ho1, ho2⟩
  · exfalso
    have hall : allOf toEvE items (some ops) = items.map toEvE := by simp [allOf]
    rw [hall] at hp
    have := (EquidistMain.read_good (fun e he => hf e (hp.subset he)) (o := EquidistMain.init clock) rfl rfl).1
    simp only [ho] at this
    simp at this
  · injection ho2 with ho2
    rw [ho1, ho2]

/-- **C105.**  With a wrong option or a seed from 2^64 on calc_equidist of sfmtdc prints nothing: it ends with -1, or the text it takes for a
parameter is none and the behaviour is undefined. -/
theorem equidistS_wrong (h : Reads tEquiS args items res) (hw : res = none ∨ ∃ e ∈ items.map toEvE, ¬ EquidistMain.Fine true e)
    (J : SFMT.Junk) (hi : BitVec 64) :
    equidistSArgs mps clock args J hi = some (.ends (-1) []) ∨ equidistSArgs mps clock args J hi = some .undef := by
  obtain ⟨d, hd, ho⟩ := obeyed_reads (toEv := toEvE)
    (err := fun evs => (EquidistMain.read true (EquidistMain.init clock) evs).error) tEquiS_ok (equi_bad true clock) rfl h
  have he : (EquidistMain.read true (EquidistMain.init clock) d.1).error = true := by
    rcases ho with ⟨ho, -⟩ | ⟨ho1, ho2⟩
    · exact ho
    · rcases hw with hw | ⟨e, he, hf⟩
      · rw [hw] at ho2; cases ho2
      · exact EquidistMain.read_bad (fun hall => hf (hall e (ho1 ▸ he))) rfl rfl
  unfold equidistSArgs
  rw [hd, Option.map_some]
  unfold SFMT.equidistMain
  dsimp only
  cases d.2.head? with
  | none => exact .inl rfl
  | some a =>
    dsimp only
    cases SFMT.parse a with
    | none => exact .inr rfl
    | some l =>
      dsimp only
      rw [if_pos he]
      exact .inl rfl

/-- **C105.**  The same for calc_equidist of dSFMTdc. -/
theorem equidistD_wrong (h : Reads tEquiD args items res) (hw : res = none ∨ ∃ e ∈ items.map toEvE, ¬ EquidistMain.Fine false e)
    (veq52 : ℕ → ℤ) (hi : BitVec 64) :
    equidistDArgs mps clock args veq52 hi = some (.ends (-1) []) ∨ equidistDArgs mps clock args veq52 hi = some .undef := by
  obtain ⟨d, hd, ho⟩ := obeyed_reads (toEv := toEvE)
    (err := fun evs => (EquidistMain.read false (EquidistMain.init clock) evs).error) tEquiD_ok (equi_bad false clock) rfl h
  have he : (EquidistMain.read false (EquidistMain.init clock) d.1).error = true := by
    rcases ho with ⟨ho, -⟩ | ⟨ho1, ho2⟩
    · exact ho
    · rcases hw with hw | ⟨e, he, hf⟩
      · rw [hw] at ho2; cases ho2
      · exact EquidistMain.read_bad (fun hall => hf (hall e (ho1 ▸ he))) rfl rfl
  unfold equidistDArgs
  rw [hd, Option.map_some]
  unfold DSFMT.equidistMain
  dsimp only
  cases d.2.head? with
  | none => exact .inl rfl
  | some a =>
    dsimp only
    cases DSFMT.parse a with
    | none => exact .inr rfl
    | some l =>
      dsimp only
      rw [if_pos he]
      exact .inl rfl

/-- **C105, against the code.**  `calc_equidist -x -v -s 5 LINE`: the option -x is not known, the text "-s" is taken for the parameter of the
generator, and the behaviour is undefined, whatever LINE is. -/
theorem equidistS_takes_option (line : List Char) (J : SFMT.Junk) (hi : BitVec 64) :
    equidistSArgs mps clock ["-x".toList, "-v".toList, "-s".toList, "5".toList, line] J hi = some .undef := by
  have h : obeyed tEquiS toEvE (fun evs => (EquidistMain.read true (EquidistMain.init clock) evs).error)
      ["-x".toList, "-v".toList, "-s".toList, "5".toList, line] = some ([.bad], ["-s".toList, "5".toList, line]) := by
    unfold obeyed
    simp only [List.map_cons, List.sum_cons]
    rfl
  unfold equidistSArgs
  rw [h]
  rfl

/-- **C105, against the code.**  The same for calc_equidist of dSFMTdc. -/
theorem equidistD_takes_option (line : List Char) (veq52 : ℕ → ℤ) (hi : BitVec 64) :
    equidistDArgs mps clock ["-x".toList, "-v".toList, "-s".toList, "5".toList, line] veq52 hi = some .undef := by
  have h : obeyed tEquiD toEvE (fun evs => (EquidistMain.read false (EquidistMain.init clock) evs).error)
      ["-x".toList, "-v".toList, "-s".toList, "5".toList, line] = some ([.bad], ["-s".toList, "5".toList, line]) := by
    unfold obeyed
    simp only [List.map_cons, List.sum_cons]
    rfl
  unfold equidistDArgs
  rw [h]
  rfl

/-! ### The command lines of the help texts -/

theorem reads_flag {T : Table} {c : Char} {r e o} (h : T.short.lookup c = some .no) (hr : Reads T r e o) :
    Reads T (['-', c] :: r) ((c, none) :: e) o :=
  .flags (fs := [c]) (by simp) (by simpa [Flags] using h) hr

theorem reads_value {T : Table} {c : Char} {v : List Char} {r e o} (h : T.short.lookup c = some .required) (hr : Reads T r e o) :
    Reads T (['-', c] :: v :: r) ((c, some v) :: e) o :=
  .detached (fs := []) (by simp [Flags]) h hr

variable {S F C M X : List Char} {ops : List (List Char)}

/-- **C105.**  `sfmtdc -s S -v -c C -f F …` -/
theorem sfmtdc_usage (h : ∀ a ∈ ops, Word a) (J : SFMT.Junk) :
    sfmtdcArgs mps kernel fuel clock canOpen ("-s".toList :: S :: "-v".toList :: "-c".toList :: C :: "-f".toList :: F :: ops) J =
      some (sfmtdc mps kernel fuel clock canOpen [.seed S, .verbose, .count C, .file F] ops J) :=
  sfmtdc_args (reads_value (c := 's') (by decide) (reads_flag (c := 'v') (by decide) (reads_value (c := 'c') (by decide)
    (reads_value (c := 'f') (by decide) (reads_words h))))) J

/-- **C105.**  `sfmtdcfixed -s S -v -c C -f F …` -/
theorem sfmtdcfixed_usage (h : ∀ a ∈ ops, Word a) (J : SFMT.Junk) :
    sfmtdcfixedArgs mps kernel fuel clock canOpen ("-s".toList :: S :: "-v".toList :: "-c".toList :: C :: "-f".toList :: F :: ops) J =
      some (sfmtdcfixed mps kernel fuel clock canOpen [.seed S, .verbose, .count C, .file F] ops J) :=
  sfmtdcfixed_args (reads_value (c := 's') (by decide) (reads_flag (c := 'v') (by decide) (reads_value (c := 'c') (by decide)
    (reads_value (c := 'f') (by decide) (reads_words h))))) J

/-- **C105.**  `dSFMTdc -s S -v -c C -f F --fixed=X -x …` -/
theorem dsfmtdc_usage (h : ∀ a ∈ ops, Word a) (J : DSFMT.Junk) :
    dsfmtdcArgs mps kernel xgcd fuel clock canOpen
      ("-s".toList :: S :: "-v".toList :: "-c".toList :: C :: "-f".toList :: F :: ("--fixed=".toList ++ X) :: "-x".toList :: ops) J =
      some (dsfmtdc mps kernel xgcd fuel clock canOpen [.seed S, .verbose, .count C, .file F, .fixed (some X), .fixed none] ops J) :=
  dsfmtdc_args (reads_value (c := 's') (by decide) (reads_flag (c := 'v') (by decide) (reads_value (c := 'c') (by decide)
    (reads_value (c := 'f') (by decide)
      (.longEq (name := "fixed".toList) (l := ⟨"fixed".toList, .optional, 'x'⟩) (by decide) ⟨by decide, .inl rfl⟩ (by decide)
        (.without (fs := []) (c := 'x') (by decide) (by decide) (reads_words h))))))) J

/-- **C105.**  `rmt64dc -s S -v -c C -f F …` -/
theorem rmt64dc_usage (h : ∀ a ∈ ops, Word a) (one : ℕ → Option (BitVec 64)) (junk : ℕ → BitVec 64) (veq : ℕ → ℕ)
    (junkPos : ℕ) (junkA : BitVec 64) (junkS : ℕ → BitVec 64) :
    rmt64dcArgs mps kernel fuel clock canOpen ("-s".toList :: S :: "-v".toList :: "-c".toList :: C :: "-f".toList :: F :: ops)
      one junk veq junkPos junkA junkS =
      some (rmt64dc mps kernel fuel clock canOpen [.seed S, .verbose, .count C, .file F] ops one junk veq junkPos junkA junkS) :=
  rmt64dc_args (reads_value (c := 's') (by decide) (reads_flag (c := 'v') (by decide) (reads_value (c := 'c') (by decide)
    (reads_value (c := 'f') (by decide) (reads_words h))))) one junk veq junkPos junkA junkS

/-- **C105.**  `mt2 -s S -v -c C -m M …` -/
theorem mt2_usage (h : ∀ a ∈ ops, Word a) (veq : ℕ → ℕ) (turns junkPos : ℕ) (junkA junkSeed : BitVec 32) (junk : ℕ → BitVec 32) :
    mt2Args mps fuel canOpen ("-s".toList :: S :: "-v".toList :: "-c".toList :: C :: "-m".toList :: M :: ops) veq turns junkPos junkA
      junkSeed junk =
      some (mt2 mps fuel canOpen [.seed S, .verbose, .count C, .max M] ops veq turns junkPos junkA junkSeed junk) :=
  mt2_args (reads_value (c := 's') (by decide) (reads_flag (c := 'v') (by decide) (reads_value (c := 'c') (by decide)
    (reads_value (c := 'm') (by decide) (reads_words h))))) veq turns junkPos junkA junkSeed junk

/-- **C105.**  `MTGP32dc -s S -v -c C -f F …` -/
theorem mtgp32dc_usage (h : ∀ a ∈ ops, Word a) (J : ℕ → MTGP.Junk) (rng : List Char → ℕ → BitVec 32) :
    mtgp32dcArgs mps fuel canOpen ("-s".toList :: S :: "-v".toList :: "-c".toList :: C :: "-f".toList :: F :: ops) J rng =
      some (mtgp32dc mps fuel canOpen [.seed S, .verbose, .count C, .file F] ops J rng) :=
  mtgp32dc_args (reads_value (c := 's') (by decide) (reads_flag (c := 'v') (by decide) (reads_value (c := 'c') (by decide)
    (reads_value (c := 'f') (by decide) (reads_words h))))) J rng

/-- **C105.**  `tinymt32dc -s S -v -c C -f F -m M -a …` -/
theorem tinymt32dc_usage (h : ∀ a ∈ ops, Word a) (veq : ℕ → ℕ) :
    tinymt32dcArgs mps fuel canOpen
      ("-s".toList :: S :: "-v".toList :: "-c".toList :: C :: "-f".toList :: F :: "-m".toList :: M :: "-a".toList :: ops) veq =
      some (tinymt32dc mps fuel canOpen [.start S, .verbose, .count C, .file F, .max M, .all] ops veq) :=
  tinymt32dc_args (reads_value (c := 's') (by decide) (reads_flag (c := 'v') (by decide) (reads_value (c := 'c') (by decide)
    (reads_value (c := 'f') (by decide) (reads_value (c := 'm') (by decide) (reads_flag (c := 'a') (by decide) (reads_words h))))))) veq

/-- **C105.**  `calc_equidist -s S -v -r LINE` of sfmtdc -/
theorem equidistS_usage (h : Word X) (hs : (Options.strtoull S).2 = false) (J : SFMT.Junk) (hi : BitVec 64) :
    equidistSArgs mps clock ["-s".toList, S, "-v".toList, "-r".toList, X] J hi =
      some (SFMT.equidistMain mps J hi clock [.seed S, .verbose, .reverse] (some X)) :=
  equidistS_args (ops := [X]) (reads_value (c := 's') (by decide) (reads_flag (c := 'v') (by decide) (reads_flag (c := 'r') (by decide)
    (reads_words (by simpa using h))))) (by simp [toEvE, EquidistMain.Fine, hs]) J hi

/-- **C105.**  `calc_equidist -s S -v LINE` of dSFMTdc -/
theorem equidistD_usage (h : Word X) (hs : (Options.strtoull S).2 = false) (veq52 : ℕ → ℤ) (hi : BitVec 64) :
    equidistDArgs mps clock ["-s".toList, S, "-v".toList, X] veq52 hi =
      some (DSFMT.equidistMain mps veq52 hi clock [.seed S, .verbose] (some X)) :=
  equidistD_args (ops := [X]) (reads_value (c := 's') (by decide) (reads_flag (c := 'v') (by decide)
    (reads_words (by simpa using h)))) (by simp [toEvE, EquidistMain.Fine, hs]) veq52 hi

/-- **C105.**  The long options of the help texts that take a value: `--name=V` and `--name V`. -/
theorem long_value {V : List Char} {r e o} : ∀ t ∈ [(tSeed, "file", 'f'), (tSeed, "count", 'c'), (tSeed, "seed", 's'), (tFixed, "file", 'f'),
      (tFixed, "count", 'c'), (tFixed, "seed", 's'), (tMt2, "seed", 's'), (tMt2, "max", 'm'), (tMt2, "count", 'c'), (tMtgp, "seed", 's'),
      (tMtgp, "output-file", 'f'), (tMtgp, "count", 'c'), (tTiny, "file", 'f'), (tTiny, "start", 's'), (tTiny, "max", 'm'),
      (tTiny, "count", 'c'), (tEquiS, "seed", 's'), (tEquiD, "seed", 's')], Reads t.1 r e o →
    Reads t.1 (('-' :: '-' :: (t.2.1.toList ++ '=' :: V)) :: r) ((t.2.2, some V) :: e) o ∧
    Reads t.1 (('-' :: '-' :: t.2.1.toList) :: V :: r) ((t.2.2, some V) :: e) o := by
  have key : ∀ {T : Table} {name : List Char} {c : Char}, ⟨name, .required, c⟩ ∈ T.long → name ≠ [] → '=' ∉ name → Reads T r e o →
      Reads T (('-' :: '-' :: (name ++ '=' :: V)) :: r) ((c, some V) :: e) o ∧
      Reads T (('-' :: '-' :: name) :: V :: r) ((c, some V) :: e) o := fun hm hn he hr =>
    ⟨.longEq he ⟨hm, .inl rfl⟩ (by simp) hr, .longNext hn he ⟨hm, .inl rfl⟩ rfl hr⟩
  intro t ht hr
  simp only [List.mem_cons, List.not_mem_nil, or_false] at ht
  rcases ht with rfl | rfl | rfl | rfl | rfl | rfl | rfl | rfl | rfl | rfl | rfl | rfl | rfl | rfl | rfl | rfl | rfl | rfl <;>
    exact key (by decide) (by decide) (by decide) hr

/-- **C105.**  And those that take none. -/
theorem long_flag {r e o} : ∀ t ∈ [(tSeed, "verbose", 'v'), (tFixed, "verbose", 'v'), (tFixed, "fixed", 'x'), (tMt2, "verbose", 'v'),
      (tMtgp, "verbose", 'v'), (tTiny, "verbose", 'v'), (tTiny, "all", 'a'), (tEquiS, "verbose", 'v'), (tEquiS, "reverse", 'r'),
      (tEquiD, "verbose", 'v')], Reads t.1 r e o → Reads t.1 (('-' :: '-' :: t.2.1.toList) :: r) ((t.2.2, none) :: e) o := by
  have key : ∀ {T : Table} {name : List Char} {c : Char} {k : Arg}, ⟨name, k, c⟩ ∈ T.long → k ≠ .required → name ≠ [] → '=' ∉ name →
      Reads T r e o → Reads T (('-' :: '-' :: name) :: r) ((c, none) :: e) o := fun hm hk hn he hr =>
    .long hn he ⟨hm, .inl rfl⟩ hk hr
  intro t ht hr
  simp only [List.mem_cons, List.not_mem_nil, or_false] at ht
  rcases ht with rfl | rfl | rfl | rfl | rfl | rfl | rfl | rfl | rfl | rfl <;>
    first
    | exact key (k := .no) (by decide) (by decide) (by decide) (by decide) hr
    | exact key (k := .optional) (by decide) (by decide) (by decide) (by decide) hr

/-! ### Command lines -/

/-- `sfmtdc 607 -vs1 --cou=3 --file out` -/
example : Reads tSeed ["607".toList, "-vs1".toList, "--cou=3".toList, "--file".toList, "out".toList]
    [('v', none), ('s', some "1".toList), ('c', some "3".toList), ('f', some "out".toList)] (some ["607".toList]) :=
  .operand (.inl (by decide))
    (.attached (fs := ['v']) (c := 's') (v := ['1']) (by decide) (.inl (by decide)) (by decide)
      (.longEq (name := "cou".toList) (l := ⟨"count".toList, .required, 'c'⟩) (by decide)
        ⟨by decide, .inr ⟨by decide, by decide, by decide⟩⟩ (by decide)
        (.longNext (name := "file".toList) (l := ⟨"file".toList, .required, 'f'⟩) (by decide) (by decide) ⟨by decide, .inl rfl⟩ rfl .nil)))

/-- `dSFMTdc -x -c 2 -- 521`: the option -x takes no argument of its own here. -/
example : Reads tFixed ["-x".toList, "-c".toList, "2".toList, "--".toList, "521".toList] [('x', none), ('c', some "2".toList)]
    (some ["521".toList]) :=
  .without (fs := []) (by decide) (by decide) (.detached (fs := []) (by decide) (by decide) (.stop _))

/-- `calc_equidist -v --seed 5 --r LINE` -/
example (line : List Char) : Reads tEquiS ["-v".toList, "--seed".toList, "5".toList, "--r".toList, '6' :: line]
    [('v', none), ('s', some "5".toList), ('r', none)] (some ['6' :: line]) :=
  .flags (fs := ['v']) (by decide) (by decide)
    (.longNext (name := "seed".toList) (l := ⟨"seed".toList, .required, 's'⟩) (by decide) (by decide) ⟨by decide, .inl rfl⟩ rfl
      (.long (name := "r".toList) (l := ⟨"reverse".toList, .no, 'r'⟩) (by decide) (by decide)
        ⟨by decide, .inr ⟨by decide, by decide, by decide⟩⟩ (by decide) (.operand (.inl (by simp)) .nil)))

/-- and its seed is fine -/
example : ∀ e ∈ [(('v', none) : Item), ('s', some "5".toList), ('r', none)].map toEvE, EquidistMain.Fine true e := by
  intro e he
  simp only [List.map_cons, List.map_nil, toEvE, List.mem_cons, List.not_mem_nil, or_false] at he
  rcases he with rfl | rfl | rfl
  · trivial
  · show (Options.strtoull _).2 = false; decide
  · rfl

/-- `tinymt32dc -m` -/
example : Reads tTiny ["5".toList, "-m".toList] [] none := .operand (.inl (by decide)) (.badEnd (fs := []) (by decide) (by decide))

/-- `--ma` of mt2 is `--max`; nothing of MTGP32dc begins with `--file`. -/
example : Resolves tMt2 "ma".toList ⟨"max".toList, .required, 'm'⟩ ∧ ∀ l, ¬ Resolves tMtgp "file".toList l :=
  ⟨⟨by decide, .inr ⟨by decide, by decide, by decide⟩⟩, fun l h => by
    rcases h with ⟨hm, h⟩
    simp only [tMtgp, List.mem_cons, List.not_mem_nil, or_false] at hm
    rcases hm with rfl | rfl | rfl | rfl <;> rcases h with h | ⟨_, h, _⟩ <;> revert h <;> decide⟩

/-- The tables do not hold the answer '?'. -/
example : ∀ T ∈ [tSeed, tFixed, tMt2, tMtgp, tTiny, tEquiS, tEquiD], T.short.lookup '?' = none ∧ ∀ l ∈ T.long, l.val ≠ '?' := by decide

end programs

end MTT.GetoptLong
