import Verif.Samples.GetoptLong

/-!
# How a command line with long options is to be read, and the loop over it
-/

namespace MTT.GetoptLong

open Getopt (St)

/-! ### The conventions of the command line -/

/-- `name` is the name of the long option `l`, or begins its name and no name of another option (with another letter). -/
def Resolves (T : Table) (name : List Char) (l : Long) : Prop :=
  l ∈ T.long ∧ (l.name = name ∨ (∀ m ∈ T.long, m.name ≠ name) ∧ name <+: l.name ∧
    ∀ m ∈ T.long, name <+: m.name → m.arg = l.arg ∧ m.val = l.val)

/-- The letters of options without argument. -/
def Flags (T : Table) (fs : List Char) : Prop := ∀ f ∈ fs, T.short.lookup f = some .no

/-- `Reads T args items res`: the command line says `items`, and then either ends, with the operands `ops` (`res = some ops`), or there is an
option that is wrong (`res = none`). -/
inductive Reads (T : Table) : List (List Char) → List Item → Option (List (List Char)) → Prop
  /-- nothing -/
  | nil : Reads T [] [] (some [])
  /-- `--` -/
  | stop (r) : Reads T (['-', '-'] :: r) [] (some r)
  /-- an operand -/
  | operand {a r e o} : (a.head? ≠ some '-' ∨ a = ['-']) → Reads T r e o → Reads T (a :: r) e (o.map (a :: ·))
  /-- `-v`, `-va` -/
  | flags {fs r e o} : fs ≠ [] → Flags T fs → Reads T r e o → Reads T (('-' :: fs) :: r) (fs.map (·, none) ++ e) o
  /-- `-s1`, `-vs1`, `-x19` -/
  | attached {fs c v r e o} : Flags T fs → T.short.lookup c = some .required ∨ T.short.lookup c = some .optional → v ≠ [] →
      Reads T r e o → Reads T (('-' :: (fs ++ c :: v)) :: r) (fs.map (·, none) ++ (c, some v) :: e) o
  /-- `-s 1`, `-vs 1`; the argument may be any text -/
  | detached {fs c v r e o} : Flags T fs → T.short.lookup c = some .required →
      Reads T r e o → Reads T (('-' :: (fs ++ [c])) :: v :: r) (fs.map (·, none) ++ (c, some v) :: e) o
  /-- `-x` -/
  | without {fs c r e o} : Flags T fs → T.short.lookup c = some .optional →
      Reads T r e o → Reads T (('-' :: (fs ++ [c])) :: r) (fs.map (·, none) ++ (c, none) :: e) o
  /-- `--verbose`, `--fixed`, `--verb` -/
  | long {name l r e o} : name ≠ [] → '=' ∉ name → Resolves T name l → l.arg ≠ .required →
      Reads T r e o → Reads T (('-' :: '-' :: name) :: r) ((l.val, none) :: e) o
  /-- `--seed=1`, `--fixed=19` -/
  | longEq {name l v r e o} : '=' ∉ name → Resolves T name l → l.arg ≠ .no →
      Reads T r e o → Reads T (('-' :: '-' :: (name ++ '=' :: v)) :: r) ((l.val, some v) :: e) o
  /-- `--seed 1` -/
  | longNext {name l v r e o} : name ≠ [] → '=' ∉ name → Resolves T name l → l.arg = .required →
      Reads T r e o → Reads T (('-' :: '-' :: name) :: v :: r) ((l.val, some v) :: e) o
  /-- an unknown letter -/
  | badLetter {fs x more r} : Flags T fs → T.short.lookup x = none → (fs = [] → x ≠ '-') →
      Reads T (('-' :: (fs ++ x :: more)) :: r) (fs.map (·, none)) none
  /-- `-s` at the end -/
  | badEnd {fs c} : Flags T fs → T.short.lookup c = some .required → Reads T ['-' :: (fs ++ [c])] (fs.map (·, none)) none
  /-- an unknown or ambiguous name -/
  | badName {name v r} : '=' ∉ name → (∀ l, ¬ Resolves T name l) → v = [] ∧ name ≠ [] ∨ v.head? = some '=' →
      Reads T (('-' :: '-' :: (name ++ v)) :: r) [] none
  /-- `--verbose=1` -/
  | badEq {name l v r} : '=' ∉ name → Resolves T name l → l.arg = .no → Reads T (('-' :: '-' :: (name ++ '=' :: v)) :: r) [] none
  /-- `--seed` at the end -/
  | badLongEnd {name l} : name ≠ [] → '=' ∉ name → Resolves T name l → l.arg = .required → Reads T ['-' :: '-' :: name] [] none

/-- What holds for all the tables of the programs. -/
structure Table.Ok (T : Table) : Prop where
  dash : T.short.lookup '-' = none
  names : ∀ l ∈ T.long, ∀ m ∈ T.long, l.name = m.name → l = m

/-! ### Long options -/

theorem findLong_some {T : Table} {name : List Char} {l : Long} (h : findLong T name = some l) : Resolves T name l := by
  unfold findLong at h
  split at h
  · rename_i l' hf
    injection h with h
    subst h
    have h1 := List.find?_some hf
    have h2 := List.mem_of_find?_eq_some hf
    exact ⟨h2, .inl (by simpa using h1)⟩
  · rename_i hf
    split at h
    · cases h
    · rename_i l' ls hfil
      split at h
      · rename_i hall
        injection h with h
        subst h
        have hmem : l' ∈ T.long.filter (fun l => name.isPrefixOf l.name) := by rw [hfil]; simp
        rw [List.mem_filter] at hmem
        refine ⟨hmem.1, .inr ⟨fun m hm he => ?_, by simpa using hmem.2, fun m hm hp => ?_⟩⟩
        · have := List.find?_eq_none.1 hf m hm
          simp [he] at this
        · have hm2 : m ∈ T.long.filter (fun l => name.isPrefixOf l.name) := by
            rw [List.mem_filter]; exact ⟨hm, by simpa using hp⟩
          rw [hfil, List.mem_cons] at hm2
          rcases hm2 with rfl | hm2
          · exact ⟨rfl, rfl⟩
          · have := List.all_eq_true.1 hall m hm2
            simpa using this
      · cases h

theorem findLong_resolves {T : Table} (hT : T.Ok) {name : List Char} {l : Long} (h : Resolves T name l) :
    ∃ l', findLong T name = some l' ∧ l'.arg = l.arg ∧ l'.val = l.val := by
  obtain ⟨h1, h2⟩ := h
  unfold findLong
  cases hf : T.long.find? (fun l => l.name = name) with
  | some l' =>
    refine ⟨l', rfl, ?_⟩
    have a1 := List.find?_some hf
    have a2 := List.mem_of_find?_eq_some hf
    simp only [decide_eq_true_eq] at a1
    rcases h2 with h2 | ⟨h2, -⟩
    · rw [hT.names l' a2 l h1 (a1.trans h2.symm)]
      exact ⟨rfl, rfl⟩
    · exact absurd a1 (h2 l' a2)
  | none =>
    dsimp only
    have hno : ∀ m ∈ T.long, m.name ≠ name := fun m hm he => by
      have := List.find?_eq_none.1 hf m hm
      simp [he] at this
    rcases h2 with h2 | ⟨-, hp, hu⟩
    · exact absurd h2 (hno l h1)
    · cases hfil : T.long.filter (fun l => name.isPrefixOf l.name) with
      | nil =>
        have : l ∈ T.long.filter (fun l => name.isPrefixOf l.name) := by
          rw [List.mem_filter]; exact ⟨h1, by simpa using hp⟩
        rw [hfil] at this
        cases this
      | cons k ks =>
        have hin : ∀ m ∈ k :: ks, m.arg = l.arg ∧ m.val = l.val := by
          intro m hm
          rw [← hfil, List.mem_filter] at hm
          exact hu m hm.1 (by simpa using hm.2)
        obtain ⟨k1, k2⟩ := hin k (by simp)
        dsimp only
        rw [if_pos]
        · exact ⟨k, rfl, k1, k2⟩
        · rw [List.all_eq_true]
          intro m hm
          obtain ⟨m1, m2⟩ := hin m (by simp [hm])
          simp [m1, m2, k1, k2]

theorem findLong_none {T : Table} {name : List Char} (h : ∀ l, ¬ Resolves T name l) : findLong T name = none := by
  cases hf : findLong T name with
  | none => rfl
  | some l => exact absurd (findLong_some hf) (h l)

theorem take_name {name : List Char} (h : '=' ∉ name) : name.takeWhile (· ≠ '=') = name ∧ name.dropWhile (· ≠ '=') = [] := by
  induction name with
  | nil => exact ⟨rfl, rfl⟩
  | cons c cs ih =>
    simp only [List.mem_cons, not_or] at h
    obtain ⟨i1, i2⟩ := ih h.2
    have hc : ¬ c = '=' := fun e => h.1 e.symm
    constructor
    · rw [List.takeWhile_cons]
      simp only [ne_eq, hc, not_false_eq_true, decide_true, if_true]
      exact congrArg _ i1
    · rw [List.dropWhile_cons]
      simp only [ne_eq, hc, not_false_eq_true, decide_true, if_true]
      exact i2

theorem take_nameEq {name : List Char} (v : List Char) (h : '=' ∉ name) :
    (name ++ '=' :: v).takeWhile (· ≠ '=') = name ∧ (name ++ '=' :: v).dropWhile (· ≠ '=') = '=' :: v := by
  induction name with
  | nil => simp
  | cons c cs ih =>
    simp only [List.mem_cons, not_or] at h
    obtain ⟨i1, i2⟩ := ih h.2
    have hc : ¬ c = '=' := fun e => h.1 e.symm
    constructor
    · rw [List.cons_append, List.takeWhile_cons]
      simp only [ne_eq, hc, not_false_eq_true, decide_true, if_true]
      exact congrArg _ i1
    · rw [List.cons_append, List.dropWhile_cons]
      simp only [ne_eq, hc, not_false_eq_true, decide_true, if_true]
      exact i2

/-! ### The loop -/

section loop

variable {ε : Type} {T : Table} {toEv : Item → ε} {err : List ε → Bool}

/-- The loop from the state `s` obeys `full` and ends with `out`, or obeys a part of `full` and ends with an error. -/
def Good (T : Table) (toEv : Item → ε) (err : List ε → Bool) (m : ℕ) (s : St) (full : List ε) (out : Option (List (List Char))) :
    Prop :=
  ∀ n, m ≤ n → ∀ acc, err acc = false → ∃ p rest, p <+: full ∧ deliver T toEv err n s acc = some (acc ++ p, rest) ∧
    (err (acc ++ p) = true ∨ p = full ∧ out = some rest)

theorem Good.mono {m m' : ℕ} {s : St} {full : List ε} {out} (h : Good T toEv err m s full out) (hm : m ≤ m') :
    Good T toEv err m' s full out := fun n hn => h n (hm.trans hn)

theorem Good.congr {m : ℕ} {s t : St} {full : List ε} {out} (h : Good T toEv err m s full out) (h1 : 1 ≤ m)
    (he : getoptLong T t = getoptLong T s) : Good T toEv err m t full out := by
  intro n hn acc ha
  obtain ⟨k, rfl⟩ : ∃ k, n = k + 1 := ⟨n - 1, by omega⟩
  have := h (k + 1) hn acc ha
  rw [deliver] at this ⊢
  rw [he]
  exact this

theorem good_end {s s' : St} (h : getoptLong T s = (none, s')) : Good T toEv err 1 s [] (some s'.rest) := by
  intro n hn acc ha
  obtain ⟨k, rfl⟩ : ∃ k, n = k + 1 := ⟨n - 1, by omega⟩
  refine ⟨[], s'.rest, List.prefix_refl _, ?_, .inr ⟨rfl, rfl⟩⟩
  rw [deliver, h]
  simp

theorem exit_err {acc : List ε} (h : err acc = true) (n : ℕ) (s : St) :
    ∃ rest, deliver T toEv err (n + 1) s acc = some (acc, rest) := by
  refine ⟨(getoptLong T s).2.rest, ?_⟩
  rw [deliver]
  simp [h]

theorem Good.cons {m : ℕ} {s s' : St} {i : Item} {full : List ε} {out} (h : Good T toEv err m s' full out) (h1 : 1 ≤ m)
    (hg : getoptLong T s = (some i, s')) : Good T toEv err (m + 1) s (toEv i :: full) out := by
  intro n hn acc ha
  obtain ⟨k, rfl⟩ : ∃ k, n = k + 2 := ⟨n - 2, by omega⟩
  have hd : deliver T toEv err (k + 2) s acc = deliver T toEv err (k + 1) s' (acc ++ [toEv i]) := by
    rw [deliver, hg]
    simp [ha]
  rw [hd]
  cases he : err (acc ++ [toEv i]) with
  | true =>
    obtain ⟨rest, hr⟩ := exit_err (T := T) (toEv := toEv) he k s'
    exact ⟨[toEv i], rest, by simp, hr, .inl he⟩
  | false =>
    obtain ⟨p, rest, hp, hr, ho⟩ := h (k + 1) (by omega) _ he
    refine ⟨toEv i :: p, rest, List.cons_prefix_cons.2 ⟨rfl, hp⟩, by rw [hr]; simp, ?_⟩
    rcases ho with ho | ⟨ho1, ho2⟩
    · left; simpa using ho
    · right; exact ⟨by rw [ho1], ho2⟩

theorem good_bad (hbad : ∀ acc, err (acc ++ [toEv ('?', none)]) = true) {s s' : St}
    (hg : getoptLong T s = (some ('?', none), s')) : Good T toEv err 2 s [toEv ('?', none)] none := by
  intro n hn acc ha
  obtain ⟨k, rfl⟩ : ∃ k, n = k + 2 := ⟨n - 2, by omega⟩
  have hd : deliver T toEv err (k + 2) s acc = deliver T toEv err (k + 1) s' (acc ++ [toEv ('?', none)]) := by
    rw [deliver, hg]
    simp [ha]
  rw [hd]
  obtain ⟨rest, hr⟩ := exit_err (T := T) (toEv := toEv) (hbad acc) k s'
  exact ⟨_, rest, by simp, hr, .inl (hbad acc)⟩

/-- The state in the middle of an element. -/
def mid (ops : List (List Char)) (l a : List Char) (r : List (List Char)) : St := if l = [] then ⟨ops, [], r⟩ else ⟨ops, l, a :: r⟩

theorem getopt_mid (ops c more a r) : getoptLong T (mid ops (c :: more) a r) = (readShort T ops c more a r).map some id := rfl

theorem getopt_elem {ops : List (List Char)} {c : Char} (hc : c ≠ '-') (more : List Char) (r) :
    getoptLong T ⟨ops, [], ('-' :: c :: more) :: r⟩ = (readShort T ops c more ('-' :: c :: more) r).map some id := by
  have hne : ('-' :: c :: more) ≠ ['-', '-'] := by simp [hc]
  show scan T ops _ = _
  rw [scan, if_neg hne]
  exact hc

theorem good_flags {ops : List (List Char)} {a tl : List Char} {r : List (List Char)} {m : ℕ} {F : List ε} {out} (h1 : 1 ≤ m)
    (h : Good T toEv err m (mid ops tl a r) F out) : ∀ fs, Flags T fs →
    Good T toEv err (m + fs.length) (mid ops (fs ++ tl) a r) ((fs.map fun f => toEv (f, none)) ++ F) out
  | [], _ => by simpa using h
  | f :: fs, hf => by
    have ih := good_flags h1 h fs fun g hg => hf g (by simp [hg])
    have hl := hf f (by simp)
    have : getoptLong T (mid ops (f :: (fs ++ tl)) a r) = (some (f, none), mid ops (fs ++ tl) a r) := by
      rw [getopt_mid]
      unfold readShort
      rw [hl]
      rfl
    have := ih.cons (by omega) this
    simpa [Nat.add_assoc] using this

theorem good_elem {ops : List (List Char)} {fs tl : List Char} {r : List (List Char)} {m : ℕ} {F : List ε} {out} (hT : T.Ok)
    (hf : Flags T fs) (hne : fs ++ tl ≠ []) (hd : fs = [] → tl.head? ≠ some '-') (h1 : 1 ≤ m)
    (h : Good T toEv err m (mid ops tl ('-' :: (fs ++ tl)) r) F out) :
    Good T toEv err (m + fs.length) ⟨ops, [], ('-' :: (fs ++ tl)) :: r⟩ ((fs.map fun f => toEv (f, none)) ++ F) out := by
  refine (good_flags h1 h fs hf).congr (by omega) ?_
  obtain ⟨c, more, hc⟩ : ∃ c more, fs ++ tl = c :: more := by
    cases h : fs ++ tl with
    | nil => exact absurd h hne
    | cons c more => exact ⟨c, more, rfl⟩
  have hcd : c ≠ '-' := by
    rintro rfl
    cases fs with
    | nil =>
      rw [List.nil_append] at hc
      exact hd rfl (by rw [hc]; rfl)
    | cons f fs =>
      simp only [List.cons_append, List.cons.injEq] at hc
      have := hf f (by simp)
      rw [hc.1, hT.dash] at this
      cases this
  rw [hc, getopt_elem hcd, getopt_mid]

theorem getopt_long {ops : List (List Char)} {body : List Char} (hb : body ≠ []) (r) :
    getoptLong T ⟨ops, [], ('-' :: '-' :: body) :: r⟩ = (readLong T ops body r).map some id := by
  have hne : ('-' :: '-' :: body) ≠ ['-', '-'] := by simp [hb]
  show scan T ops _ = _
  rw [scan, if_neg hne]

/-- All the options, those that are not obeyed because of an error included. -/
def allOf (toEv : Item → ε) (items : List Item) (res : Option (List (List Char))) : List ε :=
  items.map toEv ++ if res = none then [toEv ('?', none)] else []

def weight (args : List (List Char)) : ℕ := (args.map List.length).sum + 2

theorem allOf_map (toEv : Item → ε) (items res) (f : List (List Char) → List (List Char)) :
    allOf toEv items (res.map f) = allOf toEv items res := by cases res <;> rfl

theorem allOf_cons (toEv : Item → ε) (i items res) : allOf toEv (i :: items) res = toEv i :: allOf toEv items res := rfl

theorem allOf_append (toEv : Item → ε) (i items res) : allOf toEv (i ++ items) res = i.map toEv ++ allOf toEv items res := by
  simp [allOf]

theorem good_reads (hT : T.Ok) (hbad : ∀ acc, err (acc ++ [toEv ('?', none)]) = true) {args items res}
    (h : Reads T args items res) : ∀ ops, Good T toEv err (weight args) ⟨ops, [], args⟩ (allOf toEv items res) (res.map (ops ++ ·)) := by
  induction h with
  | nil =>
    intro ops
    have := Good.mono (good_end (T := T) (toEv := toEv) (err := err) (s := ⟨ops, [], []⟩) (s' := ⟨[], [], ops⟩) rfl) (m' := weight [])
      (by simp [weight])
    simpa [allOf] using this
  | stop r =>
    intro ops
    have : getoptLong T ⟨ops, [], ['-', '-'] :: r⟩ = (none, ⟨[], [], ops ++ r⟩) := by
      show scan T ops _ = _
      rw [scan, if_pos rfl]
    have := Good.mono (good_end (toEv := toEv) (err := err) this) (m' := weight (['-', '-'] :: r)) (by simp [weight])
    simpa [allOf] using this
  | @operand a r e o ha hr ih =>
    intro ops
    have hg : getoptLong T ⟨ops, [], a :: r⟩ = getoptLong T ⟨ops ++ [a], [], r⟩ := by
      show scan T ops _ = scan T (ops ++ [a]) r
      have hne : a ≠ ['-', '-'] := by rintro rfl; simp at ha
      rw [scan, if_neg hne]
      · rintro c rfl; simp at ha
      · rintro c more rfl; simp at ha
    have := ((ih (ops ++ [a])).mono (m' := weight (a :: r)) (by simp [weight])).congr (by simp [weight]) hg
    rw [allOf_map]
    cases o <;> simpa using this
  | @flags fs r e o h0 hf hr ih =>
    intro ops
    have := good_elem (tl := []) hT hf (by simpa using h0) (by simp) (by simp [weight]) (m := weight r)
      (F := allOf toEv e o) (out := o.map (ops ++ ·)) (ops := ops) (r := r) (by simpa [mid] using ih ops)
    rw [allOf_append, List.map_map]
    simp only [List.append_nil] at this
    exact this.mono (by simp [weight]; omega)
  | @attached fs c v r e o hf hc hv hr ih =>
    intro ops
    have hg : getoptLong T (mid ops (c :: v) ('-' :: (fs ++ c :: v)) r) = (some (c, some v), ⟨ops, [], r⟩) := by
      rw [getopt_mid]; unfold readShort
      rcases hc with hc | hc <;> simp [hc, hv]
    have hcd : c ≠ '-' := by rintro rfl; rw [hT.dash] at hc; simp at hc
    have := good_elem (tl := c :: v) hT hf (by simp) (by simpa using fun _ => hcd) (by simp) ((ih ops).cons (by simp [weight]) hg)
    rw [allOf_append, List.map_map, allOf_cons]
    exact this.mono (by simp [weight]; omega)
  | @detached fs c v r e o hf hc hr ih =>
    intro ops
    have hg : getoptLong T (mid ops [c] ('-' :: (fs ++ [c])) (v :: r)) = (some (c, some v), ⟨ops, [], r⟩) := by
      rw [getopt_mid]; unfold readShort
      simp [hc]
    have hcd : c ≠ '-' := by rintro rfl; rw [hT.dash] at hc; simp at hc
    have := good_elem (tl := [c]) hT hf (by simp) (by simpa using fun _ => hcd) (by simp) ((ih ops).cons (by simp [weight]) hg)
    rw [allOf_append, List.map_map, allOf_cons]
    exact this.mono (by simp [weight]; omega)
  | @without fs c r e o hf hc hr ih =>
    intro ops
    have hg : getoptLong T (mid ops [c] ('-' :: (fs ++ [c])) r) = (some (c, none), ⟨ops, [], r⟩) := by
      rw [getopt_mid]; unfold readShort
      simp [hc]
    have hcd : c ≠ '-' := by rintro rfl; rw [hT.dash] at hc; simp at hc
    have := good_elem (tl := [c]) hT hf (by simp) (by simpa using fun _ => hcd) (by simp) ((ih ops).cons (by simp [weight]) hg)
    rw [allOf_append, List.map_map, allOf_cons]
    exact this.mono (by simp [weight]; omega)
  | @long name l r e o h0 hn hl ha hr ih =>
    intro ops
    obtain ⟨l', f1, f2, f3⟩ := findLong_resolves hT hl
    have hg : getoptLong T ⟨ops, [], ('-' :: '-' :: name) :: r⟩ = (some (l.val, none), ⟨ops, [], r⟩) := by
      rw [getopt_long h0]; unfold readLong
      rw [(take_name hn).1, (take_name hn).2, f1]
      simp [f2, f3, ha]
    rw [allOf_cons]
    exact ((ih ops).cons (by simp [weight]) hg).mono (by simp only [weight, List.map_cons, List.sum_cons, List.length_cons]; omega)
  | @longEq name l v r e o hn hl ha hr ih =>
    intro ops
    obtain ⟨l', f1, f2, f3⟩ := findLong_resolves hT hl
    have hg : getoptLong T ⟨ops, [], ('-' :: '-' :: (name ++ '=' :: v)) :: r⟩ = (some (l.val, some v), ⟨ops, [], r⟩) := by
      rw [getopt_long (by simp)]; unfold readLong
      rw [(take_nameEq v hn).1, (take_nameEq v hn).2, f1]
      simp [f2, f3, ha]
    rw [allOf_cons]
    exact ((ih ops).cons (by simp [weight]) hg).mono (by simp only [weight, List.map_cons, List.sum_cons, List.length_cons]; omega)
  | @longNext name l v r e o h0 hn hl ha hr ih =>
    intro ops
    obtain ⟨l', f1, f2, f3⟩ := findLong_resolves hT hl
    have hg : getoptLong T ⟨ops, [], ('-' :: '-' :: name) :: v :: r⟩ = (some (l.val, some v), ⟨ops, [], r⟩) := by
      rw [getopt_long h0]; unfold readLong
      rw [(take_name hn).1, (take_name hn).2, f1]
      simp [f2, f3, ha]
    rw [allOf_cons]
    exact ((ih ops).cons (by simp [weight]) hg).mono (by simp only [weight, List.map_cons, List.sum_cons, List.length_cons]; omega)
  | @badLetter fs x more r hf hx hd =>
    intro ops
    have hg : getoptLong T (mid ops (x :: more) ('-' :: (fs ++ x :: more)) r) =
        (some ('?', none), mid ops more ('-' :: (fs ++ x :: more)) r) := by
      rw [getopt_mid]; unfold readShort mid
      simp [hx]
    have := good_elem (tl := x :: more) hT hf (by simp) (by simpa using hd) (by simp) (good_bad (toEv := toEv) (err := err) hbad hg)
    have e1 : allOf toEv (fs.map (·, none)) none = (fs.map fun f => toEv (f, none)) ++ [toEv ('?', none)] := by
      simp [allOf]
    rw [e1]
    exact this.mono (by simp [weight]; omega)
  | @badEnd fs c hf hc =>
    intro ops
    have hg : getoptLong T (mid ops [c] ('-' :: (fs ++ [c])) []) = (some ('?', none), ⟨ops, [], []⟩) := by
      rw [getopt_mid]; unfold readShort
      simp [hc]
    have hcd : c ≠ '-' := by rintro rfl; rw [hT.dash] at hc; simp at hc
    have := good_elem (tl := [c]) hT hf (by simp) (by simpa using fun _ => hcd) (by simp) (good_bad (toEv := toEv) (err := err) hbad hg)
    have e1 : allOf toEv (fs.map (·, none)) none = (fs.map fun f => toEv (f, none)) ++ [toEv ('?', none)] := by
      simp [allOf]
    rw [e1]
    exact this.mono (by simp [weight]; omega)
  | @badName name v r hn hl hv =>
    intro ops
    have hg : getoptLong T ⟨ops, [], ('-' :: '-' :: (name ++ v)) :: r⟩ = (some ('?', none), ⟨ops, [], r⟩) := by
      rw [getopt_long (by
        rcases hv with ⟨rfl, h⟩ | h
        · simpa using h
        · rintro e
          rw [(List.append_eq_nil_iff.1 e).2] at h
          cases h)]
      unfold readLong
      have ht : (name ++ v).takeWhile (· ≠ '=') = name := by
        rcases hv with ⟨rfl, -⟩ | h
        · rw [List.append_nil]; exact (take_name hn).1
        · cases v with
          | nil => cases h
          | cons c v =>
            simp only [List.head?_cons, Option.some.injEq] at h
            rw [h]; exact (take_nameEq v hn).1
      rw [ht, findLong_none hl]
      rfl
    exact (good_bad hbad hg).mono (by simp [weight])
  | @badEq name l v r hn hl ha =>
    intro ops
    obtain ⟨l', f1, f2, f3⟩ := findLong_resolves hT hl
    have hg : getoptLong T ⟨ops, [], ('-' :: '-' :: (name ++ '=' :: v)) :: r⟩ = (some ('?', none), ⟨ops, [], r⟩) := by
      rw [getopt_long (by simp)]; unfold readLong
      rw [(take_nameEq v hn).1, (take_nameEq v hn).2, f1]
      simp [f2, ha]
    exact (good_bad hbad hg).mono (by simp [weight])
  | @badLongEnd name l h0 hn hl ha =>
    intro ops
    obtain ⟨l', f1, f2, f3⟩ := findLong_resolves hT hl
    have hg : getoptLong T ⟨ops, [], ['-' :: '-' :: name]⟩ = (some ('?', none), ⟨ops, [], []⟩) := by
      rw [getopt_long h0]; unfold readLong
      rw [(take_name hn).1, (take_name hn).2, f1]
      simp [f2, ha]
    exact (good_bad hbad hg).mono (by simp [weight])

end loop

end MTT.GetoptLong
