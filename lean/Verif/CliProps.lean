import Verif.CliModel

/-!
# C90: the command line means what the help says
-/
namespace Verif.CliModel

open Verif.SourceModel (Str)

/-! ## Specification -/

/-- The help documents the flag `name` as one that takes `kind` and sets the option `field`. -/
def Documented (name : Str) (kind : Kind) (field : String) : Prop := ∃ d, (⟨name, kind, field, d⟩ : Flag) ∈ flags

/-- An argument that is no flag. -/
def Word (w : Str) : Prop := w = [] ∨ w = ['-'] ∨ ∃ c cs, w = c :: cs ∧ c ≠ '-'

/-- One or two dashes. -/
def Dashed (x tok : Str) : Prop := tok = '-' :: x ∨ tok = '-' :: '-' :: x

/-- How arguments are read: the options set, in order, with the text given for each, and the arguments left over. -/
inductive Reads : List Str → List (String × Str) → List Str → Prop
  | nil : Reads [] [] []
  | word {w as} : Word w → Reads (w :: as) [] (w :: as)
  | stop {as} : Reads (['-', '-'] :: as) [] as
  | switch {name field tok as ss rest} : Documented name .bool field → Dashed name tok → Reads as ss rest →
      Reads (tok :: as) ((field, "true".toList) :: ss) rest
  | equals {name kind field value tok as ss rest} : Documented name kind field → Dashed (name ++ '=' :: value) tok → Reads as ss rest →
      Reads (tok :: as) ((field, value) :: ss) rest
  | pair {name kind field value tok as ss rest} : Documented name kind field → kind ≠ .bool → Dashed name tok → Reads as ss rest →
      Reads (tok :: value :: as) ((field, value) :: ss) rest

/-- A text that can be given for an option. -/
def Valid (pInt : Str → Option Int) : Kind → Str → Prop
  | .bool, t => ∃ v, parseBool t = some v
  | .int, t => ∃ v, pInt t = some v
  | _, _ => True

/-! ## The table -/

theorem flags_names : ∀ f ∈ flags, (lookup f.name).map (fun g => (g.name, g.kind, g.field)) = some (f.name, f.kind, f.field) := by
  decide +kernel

theorem flags_shape : ∀ f ∈ flags, f.name ≠ [] ∧ '=' ∉ f.name ∧ f.name.head? ≠ some '-' := by decide +kernel

theorem flags_kinds : ∀ f ∈ flags, ∀ g ∈ flags, f.field = g.field → f.kind = g.kind ∧ f.default = g.default := by decide +kernel

theorem flags_output : ∀ f ∈ flags, (f.name == "output".toList || f.name == "o".toList) = decide (f.field = "OutputFile") := by decide +kernel

theorem flags_lists : ∀ f ∈ flags, f.kind = .list → f.default = .l [] := by decide +kernel

theorem doc_lookup {n : Str} {k : Kind} {fd : String} (h : Documented n k fd) : ∃ f, lookup n = some f ∧ f ∈ flags ∧ f.name = n ∧ f.kind = k ∧ f.field = fd := by
  obtain ⟨d, hd⟩ := h
  have := flags_names _ hd
  cases hl : lookup n with
  | none => rw [hl] at this; cases this
  | some f =>
    rw [hl] at this
    simp only [Option.map_some, Option.some.injEq, Prod.mk.injEq] at this
    exact ⟨f, rfl, List.mem_of_find?_eq_some hl, this.1, this.2.1, this.2.2⟩

theorem lookup_doc {n : Str} {f : Flag} (h : lookup n = some f) : f ∈ flags ∧ f.name = n ∧ Documented n f.kind f.field := by
  have h1 := List.mem_of_find?_eq_some h
  have h2 := List.find?_some h
  have e : f.name = n := by simpa using h2
  exact ⟨h1, e, f.default, by rw [← e]; exact h1⟩

theorem cutEq_name : ∀ (n : Str), '=' ∉ n → cutEq n = (n, none)
  | [], _ => rfl
  | c :: cs, h => by
    rw [cutEq, if_neg (fun e => h (by rw [e]; simp)), cutEq_name cs (fun e => h (.tail _ e))]

theorem cutEq_value : ∀ (n v : Str), '=' ∉ n → cutEq (n ++ '=' :: v) = (n, some v)
  | [], v, _ => by simp [cutEq]
  | c :: cs, v, h => by
    rw [List.cons_append, cutEq, if_neg (fun e => h (by rw [e]; simp)), cutEq_value cs v (fun e => h (.tail _ e))]

theorem nameTok_eq {n : Str} (h0 : n ≠ []) (h1 : '=' ∉ n) (h2 : n.head? ≠ some '-') (tail : Str) (v : Option Str)
    (ht : cutEq (n ++ tail) = (n, v)) : nameTok (n ++ tail) = .flag n v := by
  obtain ⟨c, cs, rfl⟩ := List.exists_cons_of_ne_nil h0
  have hc : ¬ (c = '-' ∨ c = '=') := by
    rintro (rfl | rfl)
    · exact h2 rfl
    · exact h1 (by simp)
  rw [List.cons_append] at ht ⊢
  rw [cutEq, if_neg (fun e => hc (.inr e))] at ht
  injection ht with e1 e2
  injection e1 with _ e1
  rw [nameTok, if_neg hc, e1, e2]

theorem classify_dashed {x tok : Str} (h : Dashed x tok) (h0 : x ≠ []) (h2 : x.head? ≠ some '-') : classify tok = nameTok x := by
  obtain ⟨c, cs, rfl⟩ := List.exists_cons_of_ne_nil h0
  rcases h with rfl | rfl
  · have hc : c ≠ '-' := fun e => h2 (by rw [e]; rfl)
    rw [classify]
    exact hc
  · simp [classify]

theorem classify_name {n tok : Str} {k fd} (hd : Documented n k fd) (h : Dashed n tok) : classify tok = .flag n none := by
  obtain ⟨d, hd⟩ := hd
  obtain ⟨h0, h1, h2⟩ := flags_shape _ hd
  rw [classify_dashed h h0 h2]
  have := nameTok_eq h0 h1 h2 [] none (by rw [List.append_nil, cutEq_name _ h1])
  rwa [List.append_nil] at this

theorem classify_value {n v tok : Str} {k fd} (hd : Documented n k fd) (h : Dashed (n ++ '=' :: v) tok) : classify tok = .flag n (some v) := by
  obtain ⟨d, hd⟩ := hd
  obtain ⟨h0, h1, h2⟩ := flags_shape _ hd
  have h0 : n ≠ [] := h0
  rw [classify_dashed h (by simp) (by cases n with | nil => exact absurd rfl h0 | cons c cs => exact h2)]
  exact nameTok_eq h0 h1 h2 _ _ (cutEq_value _ _ h1)

theorem classify_word {w : Str} (h : Word w) : classify w = .word := by
  rcases h with rfl | rfl | ⟨c, cs, rfl, h⟩
  · rfl
  · rfl
  · rw [classify]
    · intro rest e; injection e with e _; exact h e
    · intro c' rest e; injection e with e _; exact h e

/-- Every argument that is read as a flag has one of the documented forms. -/
theorem classify_flag {tok n : Str} {v : Option Str} (h : classify tok = .flag n v) :
    (v = none ∧ Dashed n tok) ∨ ∃ t, v = some t ∧ Dashed (n ++ '=' :: t) tok := by
  have cut : ∀ x : Str, ((cutEq x).2 = none ∧ (cutEq x).1 = x) ∨ ∃ t, (cutEq x).2 = some t ∧ x = (cutEq x).1 ++ '=' :: t := by
    intro x
    induction x with
    | nil => exact .inl ⟨rfl, rfl⟩
    | cons c cs ih =>
      rw [cutEq]
      split
      · rename_i e; exact .inr ⟨cs, rfl, by rw [e]; rfl⟩
      · rcases ih with ⟨h1, h2⟩ | ⟨t, h1, h2⟩
        · exact .inl ⟨h1, by simp only; rw [h2]⟩
        · exact .inr ⟨t, h1, by simp only [List.cons_append]; rw [← h2]⟩
  have name : ∀ x : Str, nameTok x = .flag n v → (v = none ∧ n = x) ∨ ∃ t, v = some t ∧ x = n ++ '=' :: t := by
    intro x hx
    cases x with
    | nil => cases hx
    | cons c cs =>
      rw [nameTok] at hx
      split at hx
      · cases hx
      · injection hx with e1 e2
        rcases cut cs with ⟨h1, h2⟩ | ⟨t, h1, h2⟩
        · exact .inl ⟨by rw [← e2, h1], by rw [← e1, h2]⟩
        · exact .inr ⟨t, by rw [← e2, h1], by rw [← e1, List.cons_append, ← h2]⟩
  unfold classify at h
  split at h
  · split at h
    · cases h
    · rename_i rest _
      rcases name _ h with ⟨h1, rfl⟩ | ⟨t, h1, h2⟩
      · exact .inl ⟨h1, .inr rfl⟩
      · exact .inr ⟨t, h1, .inr (by rw [h2])⟩
  · rename_i c rest _
    rcases name _ h with ⟨h1, rfl⟩ | ⟨t, h1, h2⟩
    · exact .inl ⟨h1, .inl rfl⟩
    · exact .inr ⟨t, h1, .inl (by rw [h2])⟩
  · cases h

theorem classify_iff_word {w : Str} (h : classify w = .word) : Word w := by
  cases w with
  | nil => exact .inl rfl
  | cons c cs =>
    by_cases hc : c = '-'
    · subst hc
      cases cs with
      | nil => exact .inr (.inl rfl)
      | cons d ds =>
        exfalso
        have nt : ∀ x, nameTok x ≠ .word := by
          intro x; cases x with
          | nil => simp [nameTok]
          | cons c cs => rw [nameTok]; split <;> simp
        unfold classify at h
        split at h
        · split at h
          · cases h
          · exact nt _ h
        · exact nt _ h
        · rename_i h1 h2; exact h2 d ds rfl
    · exact .inr (.inr ⟨c, cs, rfl, hc⟩)

theorem classify_iff_stop {w : Str} (h : classify w = .stop) : w = ['-', '-'] := by
  have nt : ∀ x, nameTok x ≠ .stop := by
    intro x; cases x with
    | nil => simp [nameTok]
    | cons c cs => rw [nameTok]; split <;> simp
  unfold classify at h
  split at h
  · split at h
    · rename_i e; rw [e]
    · exact absurd h (nt _)
  · exact absurd h (nt _)
  · cases h

/-! ## Parsing -/

/-- The texts given for an option, in order. -/
def givenFor (field : String) (ss : List (String × Str)) : List Str := (ss.filter fun s => s.1 == field).map (·.2)

theorem reads_of_parse {pInt : Str → Option Int} : ∀ (n : Nat) (args : List Str) (st st' : Parsing) (rest : List Str), args.length ≤ n →
    parse pInt st args = .ok st' rest → ∃ ss, Reads args ss rest
  | n, [], st, st', rest, _, h => by rw [parse] at h; cases h; exact ⟨_, .nil⟩
  | 0, a :: as, st, st', rest, hn, h => by simp at hn
  | n + 1, a :: as, st, st', rest, hn, h => by
    have hn' : as.length ≤ n := by simpa using hn
    unfold parse at h
    split at h
    · rename_i hc; cases h; exact ⟨_, .word (classify_iff_word hc)⟩
    · rename_i hc; cases h; rw [classify_iff_stop hc]; exact ⟨_, .stop⟩
    · cases h
    · rename_i nm v hc
      split at h
      · split at h <;> cases h
      · rename_i f hf
        obtain ⟨-, -, hdoc⟩ := lookup_doc hf
        split at h
        · rename_i hb
          split at h
          · cases h
          · obtain ⟨ss, hss⟩ := reads_of_parse n as _ _ _ hn' h
            rcases classify_flag hc with ⟨rfl, hd⟩ | ⟨t, rfl, hd⟩
            · exact ⟨_, .switch (hb ▸ hdoc) hd hss⟩
            · exact ⟨_, .equals hdoc hd hss⟩
        · rename_i hb
          rcases classify_flag hc with ⟨rfl, hd⟩ | ⟨t, rfl, hd⟩
          · simp only at h
            split at h
            · cases h
            · split at h
              · cases h
              · rename_i as' _ x _
                obtain ⟨ss, hss⟩ := reads_of_parse n as' _ _ _ (by simp at hn'; omega) h
                exact ⟨_, .pair hdoc hb hd hss⟩
          · simp only at h
            split at h
            · cases h
            · obtain ⟨ss, hss⟩ := reads_of_parse n as _ _ _ hn' h
              exact ⟨_, .equals hdoc hd hss⟩

/-- **C90**: an accepted command line has the documented form. -/
theorem C90_documented {pInt : Str → Option Int} {args : List Str} {c : Cli} (h : parseFlags pInt args = .cli c) :
    ∃ ss rest, Reads args ss rest := by
  unfold parseFlags at h
  split at h
  · cases h
  · cases h
  · rename_i st rest hp
    obtain ⟨ss, hss⟩ := reads_of_parse args.length args _ _ _ (Nat.le_refl _) hp
    exact ⟨ss, rest, hss⟩

/-- Options of the kind they have in the table. -/
def Typed (c : Config) : Prop := ∀ f ∈ flags, f.kind = .list → ∃ xs, c f.field = .l xs

/-- All texts given can be given. -/
def AllValid (pInt : Str → Option Int) (ss : List (String × Str)) : Prop :=
  ∀ s ∈ ss, ∀ n k, Documented n k s.1 → Valid pInt k s.2

theorem setVal_valid {pInt : Str → Option Int} {k : Kind} {v : Val} {t : Str} (hv : Valid pInt k t) (hl : k = .list → ∃ xs, v = .l xs) :
    ∃ x, setVal pInt k v t = some x := by
  cases k with
  | bool => obtain ⟨b, h⟩ := hv; exact ⟨.b b, by simp [setVal, h]⟩
  | str => exact ⟨_, rfl⟩
  | int => obtain ⟨b, h⟩ := hv; exact ⟨.i b, by simp [setVal, h]⟩
  | list => obtain ⟨xs, rfl⟩ := hl rfl; exact ⟨_, rfl⟩

theorem valid_setVal {pInt : Str → Option Int} {k : Kind} {v x : Val} {t : Str} (h : setVal pInt k v t = some x) : Valid pInt k t := by
  cases k with
  | bool => simp only [setVal, Option.map_eq_some_iff] at h; obtain ⟨b, h, -⟩ := h; exact ⟨b, h⟩
  | str => trivial
  | int => simp only [setVal, Option.map_eq_some_iff] at h; obtain ⟨b, h, -⟩ := h; exact ⟨b, h⟩
  | list => trivial

/-- The value of an option of a kind after texts were given for it. -/
def Result (pInt : Str → Option Int) (v : Val) (ts : List Str) : Kind → Val → Prop
  | .bool, x => (ts = [] ∧ x = v) ∨ ∃ pre t b, ts = pre ++ [t] ∧ parseBool t = some b ∧ x = .b b
  | .str, x => (ts = [] ∧ x = v) ∨ ∃ pre t, ts = pre ++ [t] ∧ x = .s t
  | .int, x => (ts = [] ∧ x = v) ∨ ∃ pre t n, ts = pre ++ [t] ∧ pInt t = some n ∧ x = .i n
  | .list, x => (ts = [] ∧ x = v) ∨ ∃ xs, v = .l xs ∧ x = .l (xs ++ ts)

theorem result_nil {pInt v k} : Result pInt v [] k v := by cases k <;> exact .inl ⟨rfl, rfl⟩

theorem result_cons {pInt : Str → Option Int} {k : Kind} {v x y : Val} {t : Str} {ts : List Str} (h1 : setVal pInt k v t = some x)
    (h2 : Result pInt x ts k y) : Result pInt v (t :: ts) k y := by
  cases k with
  | bool =>
    simp only [setVal, Option.map_eq_some_iff] at h1
    obtain ⟨b, hb, rfl⟩ := h1
    rcases h2 with ⟨rfl, rfl⟩ | ⟨pre, t', b', rfl, h3, rfl⟩
    · exact .inr ⟨[], t, b, rfl, hb, rfl⟩
    · exact .inr ⟨t :: pre, t', b', rfl, h3, rfl⟩
  | str =>
    cases h1
    rcases h2 with ⟨rfl, rfl⟩ | ⟨pre, t', rfl, rfl⟩
    · exact .inr ⟨[], t, rfl, rfl⟩
    · exact .inr ⟨t :: pre, t', rfl, rfl⟩
  | int =>
    simp only [setVal, Option.map_eq_some_iff] at h1
    obtain ⟨b, hb, rfl⟩ := h1
    rcases h2 with ⟨rfl, rfl⟩ | ⟨pre, t', b', rfl, h3, rfl⟩
    · exact .inr ⟨[], t, b, rfl, hb, rfl⟩
    · exact .inr ⟨t :: pre, t', b', rfl, h3, rfl⟩
  | list =>
    cases v with
    | l xs =>
      cases h1
      rcases h2 with ⟨rfl, rfl⟩ | ⟨ys, e, rfl⟩
      · exact .inr ⟨xs, rfl, rfl⟩
      · cases e; exact .inr ⟨xs, rfl, by simp⟩
    | _ => cases h1

/-- What parsing did: every option holds its result, and the output flags are remembered. -/
def Done (pInt : Str → Option Int) (st : Parsing) (ss : List (String × Str)) (st' : Parsing) : Prop :=
  (∀ n k field, Documented n k field → Result pInt (st.cfg field) (givenFor field ss) k (st'.cfg field)) ∧
    (st'.seen.any (fun n => n == "output".toList || n == "o".toList) = (st.seen.any (fun n => n == "output".toList || n == "o".toList) || ss.any fun s => s.1 == "OutputFile"))

theorem done_cons {pInt : Str → Option Int} {st st' : Parsing} {n : Str} {k : Kind} {field : String} {t : Str} {x : Val} {ss : List (String × Str)}
    (hd : Documented n k field) (hx : setVal pInt k (st.cfg field) t = some x)
    (h : Done pInt ⟨update st.cfg field x, st.seen ++ [n]⟩ ss st') : Done pInt st ((field, t) :: ss) st' := by
  obtain ⟨h1, h2⟩ := h
  obtain ⟨d, hd⟩ := hd
  refine ⟨fun n' k' g hg => ?_, ?_⟩
  · have h3 := h1 n' k' g hg
    obtain ⟨d', hg⟩ := hg
    by_cases e : g = field
    · subst e
      have ek : k' = k := (flags_kinds _ hg _ hd rfl).1
      subst ek
      simp only [update, if_true] at h3
      simp only [givenFor, List.filter_cons, beq_self_eq_true, if_true, List.map_cons]
      exact result_cons hx h3
    · simp only [update, if_neg e] at h3
      have : (field == g) = false := by simpa using Ne.symm e
      simp only [givenFor, List.filter_cons, this, Bool.false_eq_true, if_false]
      exact h3
  · rw [h2]
    have := flags_output _ hd
    simp only at this
    simp only [List.any_append, List.any_cons, List.any_nil, Bool.or_false, this, Bool.or_assoc]
    congr 1

theorem typed_update {c : Config} {field : String} {x : Val} {n k t} {pInt : Str → Option Int} (hc : Typed c) (hd : Documented n k field)
    (hx : setVal pInt k (c field) t = some x) : Typed (update c field x) := by
  intro f hf hk
  obtain ⟨d, hd⟩ := hd
  by_cases e : f.field = field
  · have ek : f.kind = k := (flags_kinds _ hf _ hd e).1
    rw [hk] at ek
    subst ek
    simp only [update, e, if_true]
    cases hv : c field with
    | l xs => rw [hv] at hx; cases hx; exact ⟨_, rfl⟩
    | _ => rw [hv] at hx; cases hx
  · simp only [update, if_neg e]; exact hc f hf hk

theorem parse_step {pInt : Str → Option Int} {args rest : List Str} {field : String} {value : Str} {ss : List (String × Str)} {n : Str} {k : Kind}
    (hd : Documented n k field) (st : Parsing) (hst : Typed st.cfg)
    (ih : ∀ st1 : Parsing, Typed st1.cfg → (AllValid pInt ss → ∃ st', parse pInt st1 args = .ok st' rest ∧ Done pInt st1 ss st') ∧ (¬ AllValid pInt ss → parse pInt st1 args = .error)) :
    (AllValid pInt ((field, value) :: ss) → ∃ x st', setVal pInt k (st.cfg field) value = some x ∧
        parse pInt ⟨update st.cfg field x, st.seen ++ [n]⟩ args = .ok st' rest ∧ Done pInt st ((field, value) :: ss) st') ∧
      (¬ AllValid pInt ((field, value) :: ss) → ∀ x, setVal pInt k (st.cfg field) value = some x →
        parse pInt ⟨update st.cfg field x, st.seen ++ [n]⟩ args = .error) := by
  obtain ⟨d, hd'⟩ := hd
  refine ⟨fun hv => ?_, fun hv x hx => ?_⟩
  · have h1 : Valid pInt k value := hv _ (.head _) n k ⟨d, hd'⟩
    obtain ⟨x, hx⟩ := setVal_valid (v := st.cfg field) h1 (fun e => hst _ hd' e)
    obtain ⟨st', h2, h3⟩ := (ih ⟨update st.cfg field x, st.seen ++ [n]⟩ (typed_update hst ⟨d, hd'⟩ hx)).1 (fun s hs => hv s (.tail _ hs))
    exact ⟨x, st', hx, h2, done_cons ⟨d, hd'⟩ hx h3⟩
  · refine (ih _ (typed_update hst ⟨d, hd'⟩ hx)).2 (fun hall => hv (fun s hs n' k' hd2 => ?_))
    rcases List.mem_cons.1 hs with rfl | hs
    · obtain ⟨d2, hd2⟩ := hd2
      have ek : k' = k := (flags_kinds _ hd2 _ hd' rfl).1
      subst ek
      exact valid_setVal hx
    · exact hall s hs n' k' hd2

theorem parse_reads {pInt : Str → Option Int} {args : List Str} {ss : List (String × Str)} {rest : List Str} (hr : Reads args ss rest) :
    ∀ st : Parsing, Typed st.cfg →
      (AllValid pInt ss → ∃ st', parse pInt st args = .ok st' rest ∧ Done pInt st ss st') ∧
      (¬ AllValid pInt ss → parse pInt st args = .error) := by
  have emptyDone : ∀ st, Done pInt st [] st := fun st => ⟨fun n k field _ => result_nil, by simp⟩
  have emptyValid : AllValid pInt [] := fun s h => by cases h
  induction hr with
  | nil => exact fun st _ => ⟨fun _ => ⟨st, by rw [parse], emptyDone st⟩, fun h => absurd emptyValid h⟩
  | word hw => exact fun st _ => ⟨fun _ => ⟨st, by rw [parse, classify_word hw], emptyDone st⟩, fun h => absurd emptyValid h⟩
  | stop => exact fun st _ => ⟨fun _ => ⟨st, by rw [parse, show classify ['-', '-'] = .stop from rfl], emptyDone st⟩, fun h => absurd emptyValid h⟩
  | switch hd ht _ ih =>
    intro st hst
    obtain ⟨s1, s2⟩ := parse_step (value := "true".toList) hd st hst ih
    obtain ⟨f, hl, -, -, hk, hf⟩ := doc_lookup hd
    refine ⟨fun hv => ?_, fun hv => ?_⟩
    · obtain ⟨x, st', hx, hp, hdone⟩ := s1 hv
      refine ⟨st', ?_, hdone⟩
      rw [parse, classify_name hd ht]
      simp only [hl, hk, hf, if_true, Option.getD_none, hx]
      exact hp
    · rw [parse, classify_name hd ht]
      simp only [hl, hk, hf, if_true, Option.getD_none]
      split
      · rfl
      · rename_i x hx; exact s2 hv x hx
  | @equals name kind field value tok as ss rest hd ht _ ih =>
    intro st hst
    obtain ⟨s1, s2⟩ := parse_step (value := value) hd st hst ih
    obtain ⟨f, hl, -, -, hk, hf⟩ := doc_lookup hd
    refine ⟨fun hv => ?_, fun hv => ?_⟩
    · obtain ⟨x, st', hx, hp, hdone⟩ := s1 hv
      refine ⟨st', ?_, hdone⟩
      rw [parse, classify_value hd ht]
      simp only [hl, hk, hf, Option.getD_some, hx]
      split <;> exact hp
    · rw [parse, classify_value hd ht]
      simp only [hl, hk, hf, Option.getD_some]
      split
      · split
        · rfl
        · rename_i x hx; exact s2 hv x hx
      · split
        · rfl
        · rename_i x hx; exact s2 hv x hx
  | @pair name kind field value tok as ss rest hd hb ht _ ih =>
    intro st hst
    obtain ⟨s1, s2⟩ := parse_step (value := value) hd st hst ih
    obtain ⟨f, hl, -, -, hk, hf⟩ := doc_lookup hd
    refine ⟨fun hv => ?_, fun hv => ?_⟩
    · obtain ⟨x, st', hx, hp, hdone⟩ := s1 hv
      refine ⟨st', ?_, hdone⟩
      rw [parse, classify_name hd ht]
      simp only [hl, hk, hf, if_neg hb, hx]
      exact hp
    · rw [parse, classify_name hd ht]
      simp only [hl, hk, hf, if_neg hb]
      split
      · rfl
      · rename_i x hx; exact s2 hv x hx

/-! ## C90 -/

theorem defaults_eq {f : Flag} (hf : f ∈ flags) : defaults f.field = f.default := by
  unfold defaults
  split
  · rename_i g hg
    have h1 := List.mem_of_find?_eq_some hg
    have h2 : g.field = f.field := by simpa using List.find?_some hg
    exact (flags_kinds g h1 f hf h2).2
  · rename_i hn
    have := List.find?_eq_none.1 hn f hf
    simp at this

theorem defaults_typed : Typed defaults := fun f hf hk => ⟨[], by rw [defaults_eq hf, flags_lists f hf hk]⟩

theorem parseFlags_reads {pInt : Str → Option Int} {args : List Str} {ss : List (String × Str)} {rest : List Str} (hr : Reads args ss rest) :
    (AllValid pInt ss → ∃ st, parseFlags pInt args = .cli (finish st rest) ∧ Done pInt ⟨defaults, []⟩ ss st) ∧
      (¬ AllValid pInt ss → parseFlags pInt args = .error) := by
  obtain ⟨h1, h2⟩ := parse_reads (pInt := pInt) hr ⟨defaults, []⟩ defaults_typed
  refine ⟨fun h => ?_, fun h => ?_⟩
  · obtain ⟨st, e, hd⟩ := h1 h; exact ⟨st, by rw [parseFlags, e], hd⟩
  · rw [parseFlags, h2 h]

/-- **C90**: a command line of the documented form is refused exactly when a value cannot be read (a number for a number, a truth value
for a switch). -/
theorem C90_accepted {pInt : Str → Option Int} {args : List Str} {ss : List (String × Str)} {rest : List Str} (hr : Reads args ss rest) :
    (∃ c, parseFlags pInt args = .cli c) ↔ AllValid pInt ss := by
  obtain ⟨h1, h2⟩ := parseFlags_reads (pInt := pInt) hr
  constructor
  · rintro ⟨c, hc⟩
    refine Classical.byContradiction fun h => ?_
    rw [h2 h] at hc; cases hc
  · intro h; obtain ⟨st, e, -⟩ := h1 h; exact ⟨_, e⟩

theorem opts_other {st : Parsing} {rest : List Str} {field : String} (h1 : field ≠ "InputDir") (h2 : field ≠ "DiagramPageSize") :
    (finish st rest).opts field = st.cfg field := by
  unfold finish
  simp only [update, if_neg h2]
  cases rest <;> simp [update, h1]

theorem given_split {field : String} {pre post : List (String × Str)} {v : Str} (h : ∀ x ∈ post, x.1 ≠ field) :
    givenFor field (pre ++ (field, v) :: post) = givenFor field pre ++ [v] := by
  have : post.filter (fun s => s.1 == field) = [] := by
    rw [List.filter_eq_nil_iff]; intro x hx; simpa using h x hx
  simp [givenFor, this]

theorem given_none {field : String} {ss : List (String × Str)} (h : ∀ x ∈ ss, x.1 ≠ field) : givenFor field ss = [] := by
  have : ss.filter (fun s => s.1 == field) = [] := by
    rw [List.filter_eq_nil_iff]; intro x hx; simpa using h x hx
  simp [givenFor, this]

/-- **C90**: of several flags for the same option the last one counts, under whichever of its names; flags for other options do not
matter. -/
theorem C90_last_counts {pInt : Str → Option Int} {args : List Str} {pre post : List (String × Str)} {rest : List Str} {c : Cli} {name : Str} {kind : Kind} {field : String} {v : Str}
    (hr : Reads args (pre ++ (field, v) :: post) rest) (hc : parseFlags pInt args = .cli c) (hd : Documented name kind field)
    (hl : ∀ x ∈ post, x.1 ≠ field) (h1 : field ≠ "InputDir") (h2 : field ≠ "DiagramPageSize") :
    (kind = .str → c.opts field = .s v) ∧ (kind = .int → ∃ n, pInt v = some n ∧ c.opts field = .i n) ∧
      (kind = .bool → ∃ b, parseBool v = some b ∧ c.opts field = .b b) := by
  have hv := (C90_accepted hr).1 ⟨c, hc⟩
  obtain ⟨st, e, hdone, -⟩ := (parseFlags_reads (pInt := pInt) hr).1 hv
  rw [hc] at e
  cases e
  have h := hdone name kind field hd
  rw [given_split hl] at h
  rw [opts_other h1 h2]
  refine ⟨?_, ?_, ?_⟩
  · rintro rfl
    rcases h with ⟨h, -⟩ | ⟨pre', t, e1, e2⟩
    · simp at h
    · rw [e2]; simp at e1; rw [← e1.2]
  · rintro rfl
    rcases h with ⟨h, -⟩ | ⟨pre', t, n, e1, e2, e3⟩
    · simp at h
    · simp at e1; exact ⟨n, by rw [e1.2]; exact e2, e3⟩
  · rintro rfl
    rcases h with ⟨h, -⟩ | ⟨pre', t, n, e1, e2, e3⟩
    · simp at h
    · simp at e1; exact ⟨n, by rw [e1.2]; exact e2, e3⟩

/-- **C90**: an option for which no flag is given has its documented default. -/
theorem C90_default {pInt : Str → Option Int} {args : List Str} {ss : List (String × Str)} {rest : List Str} {c : Cli} {f : Flag}
    (hr : Reads args ss rest) (hc : parseFlags pInt args = .cli c) (hf : f ∈ flags) (hn : ∀ x ∈ ss, x.1 ≠ f.field) (h1 : f.field = "InputDir" → rest = []) :
    c.opts f.field = f.default := by
  have hv := (C90_accepted hr).1 ⟨c, hc⟩
  obtain ⟨st, e, hdone, -⟩ := (parseFlags_reads (pInt := pInt) hr).1 hv
  rw [hc] at e
  cases e
  have h := hdone f.name f.kind f.field ⟨f.default, hf⟩
  rw [given_none hn] at h
  have hval : st.cfg f.field = f.default := by
    rw [← defaults_eq hf]
    cases hk : f.kind <;> rw [hk] at h
    · rcases h with ⟨-, h⟩ | ⟨pre, t, b, e, -⟩; exact h; simp at e
    · rcases h with ⟨-, h⟩ | ⟨pre, t, e, -⟩; exact h; simp at e
    · rcases h with ⟨-, h⟩ | ⟨pre, t, b, e, -⟩; exact h; simp at e
    · rcases h with ⟨-, h⟩ | ⟨xs, e1, e2⟩
      · exact h
      · have e1 : defaults f.field = .l xs := e1
        rw [e2, e1]; simp
  by_cases hp : f.field = "DiagramPageSize"
  · have hd : f.default = .i 100 := by
      have : ∀ f ∈ flags, f.field = "DiagramPageSize" → f.default = .i 100 := by decide +kernel
      exact this f hf hp
    have hi : ¬ f.field = "InputDir" := by rw [hp]; decide
    rw [hp] at hval
    rw [hd] at hval ⊢
    have : (finish st rest).opts f.field = clampPage (st.cfg "DiagramPageSize") := by
      unfold finish
      cases rest <;> simp [update, hp]
    rw [this, hval]; rfl
  · by_cases hi : f.field = "InputDir"
    · rw [h1 hi]; unfold finish; simp only [update, if_neg hp]; exact hval
    · rw [opts_other hi hp]; exact hval

/-- **C90**: the flags that may be repeated collect all their values, in order. -/
theorem C90_repeated {pInt : Str → Option Int} {args : List Str} {ss : List (String × Str)} {rest : List Str} {c : Cli} {name : Str} {field : String}
    (hr : Reads args ss rest) (hc : parseFlags pInt args = .cli c) (hd : Documented name .list field) :
    ∃ vs, c.opts field = .l vs ∧ vs = (ss.filter fun s => s.1 = field).map (·.2) := by
  have hv := (C90_accepted hr).1 ⟨c, hc⟩
  obtain ⟨st, e, hdone, -⟩ := (parseFlags_reads (pInt := pInt) hr).1 hv
  rw [hc] at e
  cases e
  have h := hdone name .list field hd
  obtain ⟨d, hd⟩ := hd
  have hk := flags_lists _ hd rfl
  have hdef := defaults_eq hd
  simp only at hk hdef
  rw [hk] at hdef
  have hne : field ≠ "InputDir" ∧ field ≠ "DiagramPageSize" := by
    have : ∀ f ∈ flags, f.kind = .list → f.field ≠ "InputDir" ∧ f.field ≠ "DiagramPageSize" := by decide +kernel
    exact this _ hd rfl
  rw [opts_other hne.1 hne.2]
  have eg : givenFor field ss = (ss.filter fun s => s.1 = field).map (·.2) := by
    unfold givenFor; congr 1
  rw [← eg]
  rcases h with ⟨h1, h2⟩ | ⟨xs, h1, h2⟩
  · exact ⟨[], by rw [h2]; exact hdef, by rw [h1]⟩
  · have h1 : defaults field = .l xs := h1
    rw [hdef] at h1; cases h1
    exact ⟨givenFor field ss, by rw [h2]; simp, rfl⟩

/-- **C90**: the first argument that is no flag is the directory analyzed, whatever the flags say. -/
theorem C90_directory {pInt : Str → Option Int} {args : List Str} {ss : List (String × Str)} {d : Str} {rest : List Str} {c : Cli}
    (hr : Reads args ss (d :: rest)) (hc : parseFlags pInt args = .cli c) : c.opts "InputDir" = .s d := by
  have hv := (C90_accepted hr).1 ⟨c, hc⟩
  obtain ⟨st, e, -⟩ := (parseFlags_reads (pInt := pInt) hr).1 hv
  rw [hc] at e
  cases e
  simp [finish, update]

/-- **C90**: without such an argument it is the last `-d`/`--dir`. -/
theorem C90_directory_flag {pInt : Str → Option Int} {args : List Str} {pre post : List (String × Str)} {v : Str} {c : Cli}
    (hr : Reads args (pre ++ ("InputDir", v) :: post) []) (hc : parseFlags pInt args = .cli c) (hl : ∀ x ∈ post, x.1 ≠ "InputDir") :
    c.opts "InputDir" = .s v := by
  have hv := (C90_accepted hr).1 ⟨c, hc⟩
  obtain ⟨st, e, hdone, -⟩ := (parseFlags_reads (pInt := pInt) hr).1 hv
  rw [hc] at e
  cases e
  have h := hdone "d".toList .str "InputDir" ⟨.s ".".toList, by decide +kernel⟩
  rw [given_split hl] at h
  rcases h with ⟨h, -⟩ | ⟨pre', t, e1, e2⟩
  · simp at h
  · simp at e1
    simp only [finish, update]
    rw [if_neg (by decide), e2, e1.2]

/-- **C90**: the page size of a diagram is between 50 and 500: the number given, or the nearest of the two. -/
theorem C90_page_size {pInt : Str → Option Int} {args : List Str} {pre post : List (String × Str)} {rest : List Str} {v : Str} {c : Cli}
    (hr : Reads args (pre ++ ("DiagramPageSize", v) :: post) rest) (hc : parseFlags pInt args = .cli c) (hl : ∀ x ∈ post, x.1 ≠ "DiagramPageSize") :
    ∃ n, pInt v = some n ∧ c.opts "DiagramPageSize" = .i (max 50 (min 500 n)) := by
  have hv := (C90_accepted hr).1 ⟨c, hc⟩
  obtain ⟨st, e, hdone, -⟩ := (parseFlags_reads (pInt := pInt) hr).1 hv
  rw [hc] at e
  cases e
  have h := hdone "dps".toList .int "DiagramPageSize" ⟨.i 100, by decide +kernel⟩
  rw [given_split hl] at h
  rcases h with ⟨h, -⟩ | ⟨pre', t, n, e1, e2, e3⟩
  · simp at h
  · simp at e1
    refine ⟨n, by rw [e1.2]; exact e2, ?_⟩
    have : (finish st rest).opts "DiagramPageSize" = clampPage (st.cfg "DiagramPageSize") := by
      unfold finish
      cases rest <;> simp [update]
    rw [this, e3]
    simp only [clampPage]
    split
    · congr 1; omega
    · split <;> (congr 1; omega)

/-- **C90**, what a user may not expect: everything after the first argument that is no flag is ignored, flags included. -/
theorem C90_after_directory_ignored {pInt : Str → Option Int} {args : List Str} {ss : List (String × Str)} (hr : Reads args ss []) {w : Str} (hw : Word w)
    (hstop : ['-', '-'] ∉ args) (rest : List Str) : parseFlags pInt (args ++ w :: rest) = parseFlags pInt (args ++ [w]) := by
  have key : ∀ {args ss r}, Reads args ss r → r = [] → ['-', '-'] ∉ args → ∀ st : Parsing, ∃ o : Option Parsing, ∀ tl,
      parse pInt st (args ++ w :: tl) = match o with
        | some st' => .ok st' (w :: tl)
        | none => .error := by
    intro args ss r h
    induction h with
    | nil => exact fun _ _ st => ⟨some st, fun tl => by rw [List.nil_append, parse, classify_word hw]⟩
    | word h => intro e; cases e
    | stop => intro _ h; exact absurd (.head _) h
    | @switch name field tok as ss rest hd ht _ ih =>
      intro e h st
      obtain ⟨f, hl, -, -, hk, hf⟩ := doc_lookup hd
      cases hx : setVal pInt .bool (st.cfg field) "true".toList with
      | none => exact ⟨none, fun tl => by rw [List.cons_append, parse, classify_name hd ht]; simp only [hl, hk, hf, if_true, Option.getD_none, hx]⟩
      | some x =>
        obtain ⟨o, ho⟩ := ih e (fun hm => h (.tail _ hm)) ⟨update st.cfg field x, st.seen ++ [name]⟩
        exact ⟨o, fun tl => by rw [List.cons_append, parse, classify_name hd ht]; simp only [hl, hk, hf, if_true, Option.getD_none, hx]; exact ho tl⟩
    | @equals name kind field value tok as ss rest hd ht _ ih =>
      intro e h st
      obtain ⟨f, hl, -, -, hk, hf⟩ := doc_lookup hd
      cases hx : setVal pInt kind (st.cfg field) value with
      | none => exact ⟨none, fun tl => by rw [List.cons_append, parse, classify_value hd ht]; simp only [hl, hk, hf, Option.getD_some, hx]; split <;> rfl⟩
      | some x =>
        obtain ⟨o, ho⟩ := ih e (fun hm => h (.tail _ hm)) ⟨update st.cfg field x, st.seen ++ [name]⟩
        exact ⟨o, fun tl => by rw [List.cons_append, parse, classify_value hd ht]; simp only [hl, hk, hf, Option.getD_some, hx]; split <;> exact ho tl⟩
    | @pair name kind field value tok as ss rest hd hb ht _ ih =>
      intro e h st
      obtain ⟨f, hl, -, -, hk, hf⟩ := doc_lookup hd
      cases hx : setVal pInt kind (st.cfg field) value with
      | none => exact ⟨none, fun tl => by rw [List.cons_append, List.cons_append, parse, classify_name hd ht]; simp only [hl, hk, hf, if_neg hb, hx]⟩
      | some x =>
        obtain ⟨o, ho⟩ := ih e (fun hm => h (.tail _ (.tail _ hm))) ⟨update st.cfg field x, st.seen ++ [name]⟩
        exact ⟨o, fun tl => by rw [List.cons_append, List.cons_append, parse, classify_name hd ht]; simp only [hl, hk, hf, if_neg hb, hx]; exact ho tl⟩
  obtain ⟨o, ho⟩ := key hr rfl hstop ⟨defaults, []⟩
  unfold parseFlags
  rw [ho, ho]
  cases o <;> rfl

/-! ## Where the document goes -/

/-- A file name that asks for YAML. -/
def YamlName (v : Str) : Prop := ∃ base e, v = base ++ e ∧ (e.map Char.toLower = ['.', 'y', 'a', 'm', 'l'] ∨ e.map Char.toLower = ['.', 'y', 'm', 'l'])

theorem extFrom_spec : ∀ (v : Str), (∀ e, ext.extFrom v = some e → ∃ base t, v = base ++ e ∧ e = '.' :: t ∧ '.' ∉ t ∧ '/' ∉ t) ∧
    ∀ base t, v = base ++ '.' :: t → '.' ∉ t → '/' ∉ t → ext.extFrom v = some ('.' :: t)
  | [] => ⟨fun e h => by simp [ext.extFrom] at h, fun base t h _ _ => by cases base <;> cases h⟩
  | c :: cs => by
    obtain ⟨i1, i2⟩ := extFrom_spec cs
    have push : ∀ e, ext.extFrom cs = some e → ∃ base t, c :: cs = base ++ e ∧ e = '.' :: t ∧ '.' ∉ t ∧ '/' ∉ t := by
      intro e h
      obtain ⟨base, t, h1, h2⟩ := i1 e h
      exact ⟨c :: base, t, by rw [h1]; rfl, h2⟩
    constructor
    · intro e h
      rw [ext.extFrom] at h
      split at h
      · exact push e h
      · split at h
        · rename_i hc
          split at h
          · cases h; exact push _ (by assumption)
          · rename_i hn
            split at h
            · cases h
            · rename_i hs
              cases h
              refine ⟨[], cs, rfl, by rw [hc], ?_, hs⟩
              intro hd
              -- the last dot of cs would have been found
              have : ∃ a t, cs = a ++ '.' :: t ∧ '.' ∉ t := by
                clear i1 i2 push hn hs
                induction cs with
                | nil => cases hd
                | cons x xs ih =>
                  by_cases hx : '.' ∈ xs
                  · obtain ⟨a, t, h1, h2⟩ := ih hx; exact ⟨x :: a, t, by rw [h1]; rfl, h2⟩
                  · rcases List.mem_cons.1 hd with rfl | h
                    · exact ⟨[], xs, rfl, hx⟩
                    · exact absurd h hx
              obtain ⟨a, t, h1, h2⟩ := this
              have := i2 a t h1 h2 (fun h => hs (by rw [h1]; simp [h]))
              rw [hn] at this; cases this
        · exact push e h
    · intro base t h hd hs
      rw [ext.extFrom]
      cases base with
      | nil =>
        simp only [List.nil_append, List.cons.injEq] at h
        obtain ⟨rfl, rfl⟩ := h
        rw [if_neg (by decide), if_pos rfl]
        split
        · rename_i e he
          obtain ⟨b, t', h1, h2, -⟩ := i1 e he
          exact absurd (by rw [h1, h2]; simp) hd
        · rw [if_neg hs]
      | cons b bs =>
        simp only [List.cons_append, List.cons.injEq] at h
        obtain ⟨rfl, h⟩ := h
        have := i2 bs t h hd hs
        rw [this]
        split
        · rfl
        · split <;> rfl

theorem isYaml_iff {v : Str} : isYaml v = true ↔ YamlName v := by
  have low : ∀ c : Char, c.toLower = '.' → c = '.' := by
    intro c h
    unfold Char.toLower at h
    split at h
    · rename_i hc
      exfalso
      have h1 := congrArg (fun x : Char => x.val.toNat) h
      have h2 : 65 ≤ c.val.toNat := hc.1
      have h3 : c.val.toNat ≤ 90 := hc.2
      have e : (c.val + ('a'.val - 'A'.val)).toNat = (c.val.toNat + 32) % 4294967296 := by
        rw [UInt32.toNat_add]; rfl
      simp only at h1
      rw [e] at h1
      have e2 : ('.' : Char).val.toNat = 46 := rfl
      omega
    · exact h
  constructor
  · intro h
    unfold isYaml at h
    obtain ⟨i1, -⟩ := extFrom_spec v
    unfold ext at h
    cases he : ext.extFrom v with
    | none => rw [he] at h; simp [lower] at h
    | some e =>
      rw [he] at h
      obtain ⟨base, t, h1, -⟩ := i1 e he
      refine ⟨base, e, h1, ?_⟩
      simpa [lower] using h
  · rintro ⟨base, e, rfl, h⟩
    have hm : ∃ m, e.map Char.toLower = '.' :: m ∧ '.' ∉ m ∧ '/' ∉ m := by
      rcases h with h | h
      · exact ⟨_, h, by decide, by decide⟩
      · exact ⟨_, h, by decide, by decide⟩
    obtain ⟨m, h1, h2, h3⟩ := hm
    cases e with
    | nil => cases h1
    | cons c t =>
      simp only [List.map_cons, List.cons.injEq] at h1
      have hc := low c h1.1
      subst hc
      have ht : ∀ x : Char, x.toLower ∉ m → x ∉ t := fun x hx hm => hx (by rw [← h1.2]; exact List.mem_map_of_mem hm)
      have he := (extFrom_spec (base ++ '.' :: t)).2 base t rfl (ht '.' h2) (ht '/' h3)
      unfold isYaml ext
      rw [he]
      simp only [Option.getD_some, lower, Bool.or_eq_true, beq_iff_eq]
      exact h

/-- The options as given for the output file. -/
theorem output_done {pInt : Str → Option Int} {args : List Str} {ss : List (String × Str)} {rest : List Str} {c : Cli}
    (hr : Reads args ss rest) (hc : parseFlags pInt args = .cli c) : c.outputSet = ss.any fun s => s.1 == "OutputFile" := by
  have hv := (C90_accepted hr).1 ⟨c, hc⟩
  obtain ⟨st, e, -, hdone⟩ := (parseFlags_reads (pInt := pInt) hr).1 hv
  rw [hc] at e
  cases e
  simpa [finish] using hdone

/-- **C90**: with an output flag the document is written to the file named last (below the module if the name is relative), as YAML if the name
ends in `.yaml` or `.yml` and as JSON otherwise; nothing else is written. -/
theorem C90_output_file {Doc : Type} {e : Engine Doc} {pInt : Str → Option Int} {args : List Str} {pre post : List (String × Str)} {rest : List Str} {v : Str} {c : Cli} {d : Doc}
    (hr : Reads args (pre ++ ("OutputFile", v) :: post) rest) (hc : parseFlags pInt args = .cli c) (hl : ∀ x ∈ post, x.1 ≠ "OutputFile")
    (hv : c.opts "ShowVersion" = .b false) (hg : e.generate c.opts = some d) :
    ∃ path content said, (run e pInt args) = ([.print e.notice, .file path content, .print said, .print e.elapsed], true) ∧
      ((∃ t, v = '/' :: t) → path = v) ∧ ((∀ t, v ≠ '/' :: t) → path = e.join (e.moduleRoot c.opts) v) ∧
      (YamlName v → content = e.yaml d) ∧ (¬ YamlName v → content = e.json d) := by
  have hout : c.opts "OutputFile" = .s v :=
    (C90_last_counts hr hc (name := "o".toList) (kind := .str) ⟨.s "openapi.json".toList, by decide +kernel⟩ hl (by decide) (by decide)).1 rfl
  have hset : c.outputSet = true := by rw [output_done hr hc]; simp
  have hs : strOpt c.opts "OutputFile" = v := by rw [strOpt, hout]
  have hrun : run e pInt args = ([.print e.notice, .file (if v.head? = some '/' then v else e.join (e.moduleRoot c.opts) v) (if isYaml v then e.yaml d else e.json d),
      .print (e.report d (if v.head? = some '/' then v else e.join (e.moduleRoot c.opts) v)), .print e.elapsed], true) := by
    rw [run, hc]
    simp only [hv, hg, writeOutput, hs, hset, Bool.true_eq_false, and_false, if_false]
    rfl
  refine ⟨_, _, _, hrun, ?_, ?_, ?_, ?_⟩
  · rintro ⟨t, rfl⟩; rfl
  · intro h
    rw [if_neg]
    intro h'
    cases v with
    | nil => cases h'
    | cons x xs => simp at h'; exact h xs (by rw [h'])
  · intro h; rw [if_pos (isYaml_iff.2 h)]
  · intro h; rw [if_neg (fun h' => h (isYaml_iff.1 h'))]

/-- **C90**: without an output flag no file is written; the document is printed, as JSON. -/
theorem C90_output_stdout {Doc : Type} {e : Engine Doc} {pInt : Str → Option Int} {args : List Str} {ss : List (String × Str)} {rest : List Str} {c : Cli} {d : Doc}
    (hr : Reads args ss rest) (hc : parseFlags pInt args = .cli c) (hl : ∀ x ∈ ss, x.1 ≠ "OutputFile")
    (hv : c.opts "ShowVersion" = .b false) (hg : e.generate c.opts = some d) :
    run e pInt args = ([.print e.notice, .print (e.json d), .print e.elapsed], true) := by
  have hf : (⟨"o".toList, .str, "OutputFile", .s "openapi.json".toList⟩ : Flag) ∈ flags := by decide +kernel
  have hout : c.opts "OutputFile" = .s "openapi.json".toList := C90_default hr hc hf hl (fun h => absurd h (by decide))
  have hset : c.outputSet = false := by
    rw [output_done hr hc, List.any_eq_false]
    intro x hx; simpa using hl x hx
  rw [run, hc]
  simp only [hv, hg, writeOutput, strOpt, hout, hset]
  rfl

/-- **C90** fails for what is printed: the copyright notice comes before the document and the time after it, on the same stream, so what
`apispec > openapi.json` writes is not the document. -/
theorem C90_stdout_mixed {Doc : Type} {e : Engine Doc} {pInt : Str → Option Int} {args : List Str} {ss : List (String × Str)} {rest : List Str} {c : Cli} {d : Doc}
    (hr : Reads args ss rest) (hc : parseFlags pInt args = .cli c) (hl : ∀ x ∈ ss, x.1 ≠ "OutputFile")
    (hv : c.opts "ShowVersion" = .b false) (hg : e.generate c.opts = some d) (hn : e.notice = "apispec - Copyright 2026 Ehab Terra\n".toList) :
    ((run e pInt args).1.flatMap fun f => match f with | .print s => s | .file .. => []) ≠ e.json d := by
  rw [C90_output_stdout hr hc hl hv hg]
  simp only [List.flatMap_cons, List.flatMap_nil, List.append_nil]
  intro h
  have := congrArg List.length h
  simp only [List.length_append, hn] at this
  have e2 : "apispec - Copyright 2026 Ehab Terra\n".toList.length = 36 := by decide
  omega

/-- **C90**: a run that cannot read its arguments or cannot generate writes nothing and fails. -/
theorem C90_failure {Doc : Type} {e : Engine Doc} {pInt : Str → Option Int} {args : List Str}
    (h : parseFlags pInt args = .error ∨ ∃ c, parseFlags pInt args = .cli c ∧ c.opts "ShowVersion" = .b false ∧ e.generate c.opts = none) :
    run e pInt args = ([.print e.notice], false) := by
  rcases h with h | ⟨c, h, hv, hg⟩
  · rw [run, h]
  · rw [run, h]; simp only [hv, hg]; rfl

/-! ## Examples -/

namespace Example

def s (x : String) : Str := x.toList

def num (t : Str) : Option Int := Verif.ValidateModel.atoi t

/-- `apispec -o spec.yaml --dir=./api -w --include-file a --include-file=b -dps 7 -o=api.YML` -/
def args : List Str := [s "-o", s "spec.yaml", s "--dir=./api", s "-w", s "--include-file", s "a", s "--include-file=b", s "-dps", s "7", s "-o=api.YML"]

/-- A check of the options, for the kernel to compute. -/
def check (p : Parsed) (q : Cli → Bool) : Bool := match p with
  | .cli c => q c
  | _ => false

theorem of_check {p : Parsed} {q : Cli → Prop} [DecidablePred q] (h : check p (fun c => decide (q c)) = true) : ∃ c, p = .cli c ∧ q c := by
  unfold check at h
  split at h
  · exact ⟨_, rfl, of_decide_eq_true h⟩
  · cases h

theorem doc_o : Documented (s "o") .str "OutputFile" := ⟨.s (s "openapi.json"), by decide +kernel⟩
theorem doc_dir : Documented (s "dir") .str "InputDir" := ⟨.s (s "."), by decide +kernel⟩
theorem doc_w : Documented (s "w") .bool "WriteMetadata" := ⟨.b false, by decide +kernel⟩
theorem doc_inc : Documented (s "include-file") .list "IncludeFiles" := ⟨.l [], by decide +kernel⟩
theorem doc_dps : Documented (s "dps") .int "DiagramPageSize" := ⟨.i 100, by decide +kernel⟩

theorem args_read : Reads args [("OutputFile", s "spec.yaml"), ("InputDir", s "./api"), ("WriteMetadata", s "true"), ("IncludeFiles", s "a"),
    ("IncludeFiles", s "b"), ("DiagramPageSize", s "7"), ("OutputFile", s "api.YML")] [] :=
  .pair doc_o (by decide) (.inl rfl) (.equals (value := s "./api") doc_dir (.inr rfl) (.switch doc_w (.inl rfl) (.pair doc_inc (by decide) (.inr rfl)
    (.equals (value := s "b") doc_inc (.inr rfl) (.pair doc_dps (by decide) (.inl rfl) (.equals (value := s "api.YML") doc_o (.inl rfl) .nil))))))

example : ∃ c, parseFlags num args = .cli c ∧ c.outputSet = true ∧ c.opts "OutputFile" = .s (s "api.YML") ∧ c.opts "InputDir" = .s (s "./api") ∧
    c.opts "IncludeFiles" = .l [s "a", s "b"] ∧ c.opts "DiagramPageSize" = .i 50 ∧ c.opts "WriteMetadata" = .b true ∧ c.opts "ShowVersion" = .b false :=
  of_check (by decide +kernel)

example : YamlName (s "api.YML") := ⟨s "api", s ".YML", rfl, .inr (by decide)⟩
example : isYaml (s "dir.yaml/spec.json") = false := by decide

end Example

open Example in
/-- **C90**, an instance of what is ignored: in `apispec ./api -o spec.yaml` the output flag comes after the directory and has no effect; the
document is printed. -/
theorem C90_flag_after_directory : ∃ c, parseFlags num [s "./api", s "-o", s "spec.yaml"] = .cli c ∧ c.outputSet = false ∧
    c.opts "InputDir" = .s (s "./api") ∧ c.opts "OutputFile" = .s (s "openapi.json") :=
  of_check (by decide +kernel)

end Verif.CliModel
