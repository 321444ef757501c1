import Verif.EndExportModel
import Verif.ExportProps
/-!
# C124: a redacted export of an endpoint does not name the module, and shows the problems and the trace
-/

namespace Verif.EndExport

open Verif.Export (Text Options Issue red inModule moduleRefPrefix trimRight words flat In Apart placeholder)

/-! ### Specification -/

/-- The fields that are not redacted. -/
inductive Open (r : Report) : Text → Prop
  | method : Open r r.method
  | request (q : Text × Text) (h : r.request = some q) : Open r q.1
  | status (x : Resp) (h : x ∈ r.responses) : Open r x.status
  | content (x : Resp) (h : x ∈ r.responses) : Open r x.contentType
  | param (x : Param) (h : x ∈ r.params) : Open r x.name
  | place (x : Param) (h : x ∈ r.params) : Open r x.loc
  | type (x : Param) (h : x ∈ r.params) : Open r x.type
  | kind (i : Issue) (h : i ∈ r.issues) : Open r i.kind
  | interface (n : Node) (h : n ∈ r.nodes) (hr : n.resolved = true) : Open r n.resolvedFrom

/-- The words that come from no field. -/
def fixedWords : List String :=
  ["", "# apispec — endpoint report", "*", "- Handler: ", "- Source:", "- Response", "- Param ", " in", "(required)", "## Shape", "- Request:", "- *", "* —", "(",
   " — _in-module type; should auto-resolve, prefer a code/analysis fix_", " — _external type; prefer a config entry_", "## Problem(s)", "→", "  ⟐ impl (1 of",
   "implementations of", "— may be kept general)", "  ⟐ impl (sole implementation of", "  ⟐ impl (resolved from interface)",
   "## Resolution trace (call subtree, this endpoint)", "`⟐ impl` marks a concrete implementation resolved from an interface call.", "```", "…",
   "## Handler source (pulled from your code)", "```go", "## Current apispec config", "```yaml", "## What I need"]

/-- What is after the last slash of a text. -/
def Last (path s : Text) : Prop := '/' ∉ s ∧ (path = s ∨ ∃ q, path = q ++ '/' :: s)

/-! ### Lemmas -/

/-- What a part can be. -/
inductive Ok (o : Options) (fx : Fixed) (r : Report) : Text → Prop
  | red (s : Text) : Ok o fx r (red o s)
  | field (s : Text) (h : Open r s) : Ok o fx r s
  | fixed (s : String) (h : s ∈ fixedWords) : Ok o fx r s.toList
  | num (n : Nat) : Ok o fx r (fx.num n)
  | need : Ok o fx r fx.need

def Sep (c : Char) : Prop := c ∈ [' ', '\n', '`', '*', ':', ')']

def Fine (o : Options) (fx : Fixed) (r : Report) (ps : List (Text × Char)) : Prop := ∀ p ∈ ps, Ok o fx r p.1 ∧ Sep p.2

variable {o : Options} {fx : Fixed} {r : Report}

theorem fine_append {a b : List (Text × Char)} (ha : Fine o fx r a) (hb : Fine o fx r b) : Fine o fx r (a ++ b) := by
  intro p hp
  rcases List.mem_append.1 hp with h | h
  · exact ha p h
  · exact hb p h

theorem fine_cons {t : Text} {c : Char} {b : List (Text × Char)} (ht : Ok o fx r t) (hc : Sep c) (hb : Fine o fx r b) : Fine o fx r ((t, c) :: b) := by
  intro p hp
  rcases List.mem_cons.1 hp with rfl | h
  · exact ⟨ht, hc⟩
  · exact hb p h

theorem fine_nil : Fine o fx r [] := fun p hp => by cases hp

theorem fine_flatMap {α : Type} (l : List α) (f : α → List (Text × Char)) (h : ∀ x ∈ l, Fine o fx r (f x)) : Fine o fx r (l.flatMap f) := by
  intro p hp
  obtain ⟨x, hx, hp⟩ := List.mem_flatMap.1 hp
  exact h x hx p hp

theorem ok_nil : Ok o fx r [] := Ok.fixed (o := o) (fx := fx) (r := r) "" (by simp [fixedWords])

theorem fine_words (s : String) (h : s ∈ fixedWords) {b : List (Text × Char)} (hb : Fine o fx r b) : Fine o fx r (words s :: b) :=
  fine_cons (.fixed s h) (by simp [Sep]) hb

theorem ok_words (s : String) (h : s ∈ fixedWords) : Ok o fx r s.toList := .fixed s h

theorem fine_head : Fine o fx r (headParts o r) := by
  unfold headParts
  refine fine_append (fine_append (fine_append ?_ ?_) ?_) ?_
  · exact fine_words _ (by decide) <| fine_cons ok_nil (by simp [Sep]) <| fine_cons (ok_words "*" (by decide)) (by simp [Sep]) <|
      fine_cons (.field _ .method) (by simp [Sep]) <| fine_cons (.red _) (by simp [Sep]) <| fine_cons (ok_words "*" (by decide)) (by simp [Sep]) <|
      fine_cons ok_nil (by simp [Sep]) fine_nil
  · split
    · exact fine_cons (ok_words "- Handler: " (by decide)) (by simp [Sep]) <| fine_cons (.red _) (by simp [Sep]) <| fine_cons ok_nil (by simp [Sep]) fine_nil
    · exact fine_nil
  · split
    · exact fine_cons (ok_words "- Source:" (by decide)) (by simp [Sep]) <| fine_cons (.red _) (by simp [Sep]) fine_nil
    · exact fine_nil
  · exact fine_cons ok_nil (by simp [Sep]) fine_nil

theorem fine_shape : Fine o fx r (shapeParts o r) := by
  unfold shapeParts
  refine fine_append (fine_append (fine_append (fine_append ?_ ?_) ?_) ?_) ?_
  · exact fine_words _ (by decide) fine_nil
  · split
    · next q hq =>
      exact fine_cons (ok_words "- Request:" (by decide)) (by simp [Sep]) <| fine_cons (.field _ (.request q hq)) (by simp [Sep]) <|
        fine_cons ok_nil (by simp [Sep]) <| fine_cons (.red _) (by simp [Sep]) <| fine_cons ok_nil (by simp [Sep]) fine_nil
    · exact fine_nil
  · refine fine_flatMap _ _ fun x hx => ?_
    unfold respParts
    exact fine_cons (ok_words "- Response" (by decide)) (by simp [Sep]) <| fine_cons (.field _ (.status x hx)) (by simp [Sep]) <| fine_cons ok_nil (by simp [Sep]) <|
      fine_cons (.field _ (.content x hx)) (by simp [Sep]) <| fine_cons ok_nil (by simp [Sep]) <| fine_cons (.red _) (by simp [Sep]) <|
      fine_cons ok_nil (by simp [Sep]) fine_nil
  · refine fine_flatMap _ _ fun x hx => ?_
    unfold paramParts
    refine fine_append ?_ ?_
    · exact fine_cons (ok_words "- Param " (by decide)) (by simp [Sep]) <| fine_cons (.field _ (.param x hx)) (by simp [Sep]) <|
        fine_cons (ok_words " in" (by decide)) (by simp [Sep]) <| fine_cons (.field _ (.place x hx)) (by simp [Sep]) <| fine_cons ok_nil (by simp [Sep]) fine_nil
    · split
      · exact fine_cons (.field _ (.type x hx)) (by simp [Sep]) <| fine_words _ (by decide) fine_nil
      · exact fine_cons (.field _ (.type x hx)) (by simp [Sep]) fine_nil
  · exact fine_cons ok_nil (by simp [Sep]) fine_nil

theorem warns_mem (r : Report) (i : Issue) (h : i ∈ warns r) : i ∈ r.issues := (List.mem_filter.1 h).1

theorem fine_problems : Fine o fx r (problemParts o r) := by
  unfold problemParts
  split
  · exact fine_nil
  refine fine_append (fine_append (fine_words _ (by decide) fine_nil) ?_) (fine_cons ok_nil (by simp [Sep]) fine_nil)
  refine fine_flatMap _ _ fun i hi => ?_
  unfold issueParts
  refine fine_append ?_ ?_
  · exact fine_cons (ok_words "- *" (by decide)) (by simp [Sep]) <| fine_cons (.field _ (.kind i (warns_mem r i hi))) (by simp [Sep]) <|
      fine_cons (ok_words "* —" (by decide)) (by simp [Sep]) fine_nil
  · split
    · refine fine_append ?_ ?_
      · exact fine_cons (.red _) (by simp [Sep]) <| fine_cons (ok_words "(" (by decide)) (by simp [Sep]) <| fine_cons (.red _) (by simp [Sep]) <|
          fine_cons ok_nil (by simp [Sep]) fine_nil
      · split
        · split
          · exact fine_words _ (by decide) fine_nil
          · exact fine_words _ (by decide) fine_nil
        · exact fine_cons ok_nil (by simp [Sep]) fine_nil
    · exact fine_cons (.red _) (by simp [Sep]) fine_nil

theorem resolved_mem (r : Report) (id : Text) (n : Node) (h : resolvedNode r id = some n) : n ∈ r.nodes ∧ n.resolved = true := by
  have := List.mem_filter.1 (List.mem_reverse.1 (List.mem_of_find?_eq_some h))
  exact this

theorem fine_edge (e : Text × Text) : Fine o fx r (edgeParts o fx r e) := by
  unfold edgeParts
  refine fine_append ?_ ?_
  · exact fine_cons (.red _) (by simp [Sep]) <| fine_cons (ok_words "→" (by decide)) (by simp [Sep]) fine_nil
  · split
    · exact fine_cons (.red _) (by simp [Sep]) fine_nil
    · next n hn =>
      obtain ⟨h1, h2⟩ := resolved_mem r _ n hn
      refine fine_append (fine_cons (.red _) (by simp [Sep]) fine_nil) ?_
      split
      · exact fine_cons (ok_words "  ⟐ impl (1 of" (by decide)) (by simp [Sep]) <| fine_cons (.num _) (by simp [Sep]) <|
          fine_cons (ok_words "implementations of" (by decide)) (by simp [Sep]) <| fine_cons (.field _ (.interface n h1 h2)) (by simp [Sep]) <|
          fine_words _ (by decide) fine_nil
      · split
        · exact fine_cons (ok_words "  ⟐ impl (sole implementation of" (by decide)) (by simp [Sep]) <|
            fine_cons (.field _ (.interface n h1 h2)) (by simp [Sep]) <| fine_cons ok_nil (by simp [Sep]) fine_nil
        · exact fine_words _ (by decide) fine_nil

theorem fine_trace : Fine o fx r (traceParts o fx r) := by
  unfold traceParts
  split
  · exact fine_nil
  refine fine_append (fine_append (fine_append ?_ ?_) ?_) ?_
  · exact fine_words _ (by decide) <| fine_words _ (by decide) <| fine_words _ (by decide) fine_nil
  · exact fine_flatMap _ _ fun e _ => fine_edge e
  · split
    · exact fine_words _ (by decide) fine_nil
    · exact fine_nil
  · exact fine_words _ (by decide) <| fine_cons ok_nil (by simp [Sep]) fine_nil

theorem fine_tail : Fine o fx r (tailParts o fx r) := by
  unfold tailParts
  refine fine_append (fine_append ?_ ?_) ?_
  · split
    · exact fine_words _ (by decide) <| fine_words _ (by decide) <| fine_cons (.red _) (by simp [Sep]) <| fine_words _ (by decide) <|
        fine_cons ok_nil (by simp [Sep]) fine_nil
    · exact fine_nil
  · split
    · exact fine_nil
    · exact fine_words _ (by decide) <| fine_cons ok_nil (by simp [Sep]) <| fine_words _ (by decide) <| fine_cons (.red _) (by simp [Sep]) <|
        fine_words _ (by decide) <| fine_cons ok_nil (by simp [Sep]) fine_nil
  · exact fine_words _ (by decide) <| fine_cons .need (by simp [Sep]) fine_nil

theorem fine_parts : Fine o fx r (parts o fx r) :=
  fine_append (fine_append (fine_append (fine_append fine_head fine_shape) fine_problems) fine_trace) fine_tail

theorem short_label (p : Text) : Last p (shortLabel p) := by
  induction p with
  | nil => exact ⟨by simp [shortLabel], .inl rfl⟩
  | cons x xs ih =>
    unfold shortLabel
    split
    · next h =>
      refine ⟨ih.1, .inr ?_⟩
      rcases ih.2 with e | ⟨q, e⟩
      · exact absurd (e ▸ h) ih.1
      · exact ⟨x :: q, by rw [List.cons_append, ← e]⟩
    · next h =>
      split
      · next e => exact ⟨h, .inr ⟨[], by rw [e]; rfl⟩⟩
      · next e => exact ⟨by simp only [List.mem_cons, not_or]; exact ⟨fun e' => e e'.symm, h⟩, .inl rfl⟩

theorem flat_in (a b ps : List (Text × Char)) : In (flat ps) (flat (a ++ ps ++ b)) := by
  unfold flat
  exact ⟨_, _, by rw [List.flatMap_append, List.flatMap_append]⟩

theorem in_trans {a b c : Text} (h : In a b) (h' : In b c) : In a c := by
  obtain ⟨x, y, rfl⟩ := h
  obtain ⟨z, w, rfl⟩ := h'
  exact ⟨z ++ x, y ++ w, by simp⟩

theorem flat_in_left (a b : List (Text × Char)) : In (flat a) (flat (a ++ b)) := by simpa using flat_in [] b a
theorem flat_in_right (a b : List (Text × Char)) : In (flat b) (flat (a ++ b)) := by simpa using flat_in a [] b

theorem flat_in_flatMap {α : Type} (l : List α) (f : α → List (Text × Char)) (x : α) (h : x ∈ l) : In (flat (f x)) (flat (l.flatMap f)) := by
  obtain ⟨a, b, rfl⟩ := List.append_of_mem h
  rw [List.flatMap_append, List.flatMap_cons, ← List.append_assoc]
  exact flat_in _ _ _

theorem in_problems (o : Options) (fx : Fixed) (r : Report) : In (flat (problemParts o r)) (exportText o fx r) := by
  unfold exportText parts
  exact in_trans (flat_in_right _ _) (in_trans (flat_in_left _ (traceParts o fx r)) (flat_in_left _ _))

theorem in_trace (o : Options) (fx : Fixed) (r : Report) : In (flat (traceParts o fx r)) (exportText o fx r) := by
  unfold exportText parts
  exact in_trans (flat_in_right _ _) (flat_in_left _ _)

theorem edge_shown (o : Options) (fx : Fixed) (r : Report) (e : Text × Text) (h : e ∈ r.edges.take 40) : In (flat (edgeParts o fx r e)) (exportText o fx r) := by
  refine in_trans ?_ (in_trace o fx r)
  unfold traceParts
  rw [if_neg (fun h' => by rw [h'] at h; simp at h)]
  exact in_trans (in_trans (in_trans (flat_in_flatMap _ (edgeParts o fx r) e h) (flat_in_right _ _)) (flat_in_left _ _)) (flat_in_left _ _)

/-! ### Properties -/

/-- With redaction, the module path is in the export of an endpoint only if it is in fixed words or numbers or in one of
the fields that are not redacted.  It is never there from the path, the handler, positions, schemas, problems, components,
the ends of calls, the source or the configuration. -/
theorem C124_redacted_partial (o : Options) (fx : Fixed) (r : Report) (hr : o.redact = true) (hm : o.modulePath ≠ []) (ha : Apart placeholder o.modulePath)
    (hsep : ∀ c ∈ [' ', '\n', '`', '*', ':', ')'], c ∉ o.modulePath) (h : In o.modulePath (exportText o fx r)) :
    (∃ t, Open r t ∧ In o.modulePath t) ∨ (∃ s ∈ fixedWords, In o.modulePath s.toList) ∨ (∃ n, In o.modulePath (fx.num n)) ∨ In o.modulePath fx.need := by
  obtain ⟨p, hp, hi⟩ := Verif.Export.in_flat o.modulePath hm (parts o fx r) (fun p hp => hsep _ (fine_parts p hp).2) h
  have hk := (fine_parts p hp).1
  generalize p.1 = t at hk hi
  cases hk with
  | red s =>
    unfold red at hi
    rw [if_pos ⟨hr, hm⟩] at hi
    exact absurd hi (Verif.Export.C121_replaced _ s hm ha)
  | field s h => exact .inl ⟨_, h, hi⟩
  | fixed s h => exact .inr (.inl ⟨s, h, hi⟩)
  | num n => exact .inr (.inr (.inl ⟨n, hi⟩))
  | need => exact .inr (.inr (.inr hi))

/-- Every warning is there, with its kind and what is wrong; the part that is redacted is only what names the module. -/
theorem C124_reported (o : Options) (fx : Fixed) (r : Report) (i : Issue) (hi : i ∈ r.issues) (hw : i.severity = "warn".toList)
    (hd : o.redact = false ∨ ¬In o.modulePath i.detail) : In ("- **".toList ++ i.kind ++ "** — ".toList ++ i.detail) (exportText o fx r) := by
  have hmem : i ∈ warns r := List.mem_filter.2 ⟨hi, by simpa using hw⟩
  have hsame : red o i.detail = i.detail := by
    unfold red
    split
    · next hc =>
      rcases hd with h | h
      · rw [h] at hc; exact absurd hc.1 (by decide)
      · exact Verif.Export.C121_kept _ _ _ h
    · rfl
  refine in_trans ?_ (in_problems o fx r)
  unfold problemParts
  rw [if_neg (fun h => by rw [h] at hmem; cases hmem)]
  refine in_trans ?_ (in_trans (in_trans (flat_in_flatMap _ (issueParts o) i hmem) (flat_in_right _ _)) (flat_in_left _ _))
  unfold issueParts
  split
  · exact ⟨[], _, by simp only [hsame, flat, List.flatMap_cons, List.cons_append, List.nil_append, List.append_assoc]; rfl⟩
  · exact ⟨[], _, by simp only [hsame, flat, List.flatMap_cons, List.cons_append, List.nil_append, List.append_assoc]; rfl⟩

/-- The first forty calls of the trace are there, with what is after the last slash of their ends. -/
theorem C124_trace (o : Options) (fx : Fixed) (r : Report) (k : Nat) (e : Text × Text) (hk : k < 40) (he : r.edges[k]? = some e) (hd : o.redact = false) :
    ∃ s t, Last e.1 s ∧ Last e.2 t ∧ In (s ++ " → ".toList ++ t) (exportText o fx r) := by
  refine ⟨_, _, short_label e.1, short_label e.2, in_trans ?_ (edge_shown o fx r e ?_)⟩
  · have hsame : ∀ s, red o s = s := fun s => by
      unfold red
      rw [if_neg (fun h => by rw [hd] at h; exact absurd h.1 (by decide))]
    unfold edgeParts
    split
    · exact ⟨[], _, by simp only [hsame, flat, List.flatMap_cons, List.cons_append, List.nil_append, List.append_assoc]; rfl⟩
    · exact ⟨[], _, by simp only [hsame, flat, List.flatMap_cons, List.cons_append, List.nil_append, List.append_assoc]; rfl⟩
  · rw [List.mem_iff_getElem?]
    exact ⟨k, by rw [List.getElem?_take, if_pos hk, he]⟩

/-- The interface that a call was resolved from is shown; of several nodes for the call, that of the last one. -/
theorem C124_interface_shown (o : Options) (fx : Fixed) (r : Report) (k : Nat) (e : Text × Text) (hk : k < 40) (he : r.edges[k]? = some e)
    (n : Node) (before after : List Node) (hn : r.nodes = before ++ n :: after) (hi : n.id = e.2) (hr : n.resolved = true)
    (hl : ∀ n' ∈ after, n'.id ≠ e.2) : In n.resolvedFrom (exportText o fx r) := by
  by_cases hf : n.resolvedFrom = []
  · rw [hf]; exact ⟨[], exportText o fx r, rfl⟩
  have hres : resolvedNode r e.2 = some n := by
    unfold resolvedNode
    rw [hn, List.filter_append, List.filter_cons_of_pos (by simpa using hr), List.reverse_append, List.reverse_cons, List.append_assoc, List.find?_append]
    have : (after.filter (fun n => n.resolved)).reverse.find? (fun n => decide (n.id = e.2)) = none := by
      rw [List.find?_eq_none]
      intro n' h'
      simpa using hl n' (List.mem_filter.1 (List.mem_reverse.1 h')).1
    rw [this, Option.none_or, List.singleton_append, List.find?_cons_of_pos (by simpa using hi)]
  have hmem : e ∈ r.edges.take 40 := by
    rw [List.mem_iff_getElem?]
    exact ⟨k, by rw [List.getElem?_take, if_pos hk, he]⟩
  refine in_trans ?_ (edge_shown o fx r e hmem)
  unfold edgeParts
  simp only [hres]
  by_cases ha : n.alternatives > 1
  · rw [if_pos ⟨hf, ha⟩]
    exact Verif.Export.part_in _ (n.resolvedFrom, ' ') (by simp)
  · rw [if_neg (fun h => ha h.2), if_pos hf]
    exact Verif.Export.part_in _ (n.resolvedFrom, ')') (by simp)

/-- Names of components have the module path with underscores and are not redacted: they show the owner and the name of the
module. -/
theorem C124_component_shown (o : Options) (fx : Fixed) (r : Report) (i : Issue) (hi : i ∈ r.issues) (hw : i.severity = "warn".toList) (rest : Text)
    (hs : '/' ∈ o.modulePath) (hn : '/' ∉ rest) (href : i.ref = moduleRefPrefix o.modulePath ++ rest) : In (moduleRefPrefix o.modulePath) (exportText o fx r) := by
  have hno : ¬In o.modulePath i.ref := by
    rintro ⟨a, b, h⟩
    have : '/' ∈ moduleRefPrefix o.modulePath ++ rest := by rw [← href, h]; simp [hs]
    rcases List.mem_append.1 this with h | h
    · unfold moduleRefPrefix at h
      obtain ⟨x, _, hx⟩ := List.mem_map.1 h
      split at hx
      · exact absurd hx (by decide)
      · next hc => exact hc (.inl hx)
    · exact hn h
  have hsame : red o i.ref = i.ref := by
    unfold red
    split
    · exact Verif.Export.C121_kept _ _ _ hno
    · rfl
  have hne : i.ref ≠ [] := by
    rw [href]
    intro h
    have := (List.append_eq_nil_iff.1 h).1
    unfold moduleRefPrefix at this
    rw [List.map_eq_nil_iff] at this
    rw [this] at hs
    cases hs
  have hmem : i ∈ warns r := List.mem_filter.2 ⟨hi, by simpa using hw⟩
  refine in_trans ⟨[], rest, by rw [List.nil_append, ← href]⟩ (in_trans ?_ (in_problems o fx r))
  unfold problemParts
  rw [if_neg (fun h => by rw [h] at hmem; cases hmem)]
  refine in_trans ?_ (in_trans (in_trans (flat_in_flatMap _ (issueParts o) i hmem) (flat_in_right _ _)) (flat_in_left _ _))
  unfold issueParts
  rw [if_pos hne]
  have := Verif.Export.part_in _ (red o i.ref, '`') (show (red o i.ref, '`') ∈ ([("- *".toList, '*'), (i.kind, '*'), ("* —".toList, ' ')] ++
    ([(red o i.detail, ' '), ("(".toList, '`'), (red o i.ref, '`'), ([], ')')] ++
    (if moduleRefPrefix o.modulePath ≠ [] then
      [if inModule o i.ref then words " — _in-module type; should auto-resolve, prefer a code/analysis fix_"
       else words " — _external type; prefer a config entry_"]
     else [([], '\n')]))) from List.mem_append_right _ (List.mem_append_left _ (.tail _ (.tail _ (.head _)))))
  rw [hsame] at this ⊢
  exact this

/-- More than forty calls are cut, and the cut is marked. -/
theorem C124_cut (o : Options) (fx : Fixed) (r : Report) (h : 40 < r.edges.length) : In "…\n```\n".toList (exportText o fx r) := by
  refine in_trans ?_ (in_trace o fx r)
  unfold traceParts
  rw [if_neg (fun h' => by rw [h'] at h; simp at h), if_pos h, List.append_assoc]
  exact in_trans ⟨[], ['\n'], by rfl⟩ (flat_in_right _ _)

/-! ### Cases that meet the hypotheses -/

abbrev c (s : String) : Text := s.toList

abbrev shop : Text := c "github.com/acme/shop"

def rep : Report :=
  ⟨c "GET", c "/users", c "github.com/acme/shop/api.List", [], none, [⟨c "200", c "application/json", c "User"⟩], [⟨c "id", c "query", c "string", true⟩],
    [⟨c "warn", c "missing", c "GET", c "/users", c "github.com/acme/shop/api.User is not resolved", []⟩],
    [⟨c "github.com/acme/shop/db.Load", true, c "Loader", 2⟩],
    [(c "github.com/acme/shop/api.List", c "github.com/acme/shop/db.Load")], []⟩

def fixed : Fixed := ⟨fun _ => ['2'], c "Suggest."⟩

example : exportText ⟨[], shop, true⟩ fixed rep = c "# apispec — endpoint report\n\n**GET /users**\n\n- Handler: `example.com/app/api.List`\n\n## Shape\n- Response 200: application/json `User`\n- Param `id` in query: string (required)\n\n## Problem(s)\n- **missing** — example.com/app/api.User is not resolved\n\n## Resolution trace (call subtree, this endpoint)\n`⟐ impl` marks a concrete implementation resolved from an interface call.\n```\napi.List → db.Load   ⟐ impl (1 of 2 implementations of Loader — may be kept general)\n```\n\n## What I need\nSuggest.\n" := by
  decide +kernel

/-- The hypotheses of `C124_redacted_partial` on the module path are met. -/
example : shop ≠ [] ∧ Apart placeholder shop ∧ ∀ c ∈ [' ', '\n', '`', '*', ':', ')'], c ∉ shop :=
  ⟨by decide, Verif.Export.apart_of _ _ (by decide +kernel) (by decide +kernel) (by decide +kernel) (by decide +kernel), by decide⟩

/-- The hypotheses of `C124_interface_shown` are met. -/
example : In (c "Loader") (exportText ⟨[], shop, true⟩ fixed rep) :=
  C124_interface_shown ⟨[], shop, true⟩ fixed rep 0 _ (by decide) rfl ⟨c "github.com/acme/shop/db.Load", true, c "Loader", 2⟩ [] [] rfl rfl rfl (fun _ h => by cases h)

/-- Those of `C124_component_shown`. -/
example : '/' ∈ shop ∧ '/' ∉ c "_api_User" ∧ moduleRefPrefix shop ++ c "_api_User" = c "github_com_acme_shop_api_User" := by decide

end Verif.EndExport
