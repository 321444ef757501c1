import Verif.EndpointModel
import Verif.BrowseProps
/-!
# C117: the report about an endpoint repeats what is documented
-/

namespace Verif.Endpoint

open Verif.Browse (SortsBy slt slt_total)

/-! ### Specification -/

/-- The document has this operation, in this item. -/
inductive Documented {S : Type} (paths : List (Str × PathItem S)) (path : Str) : Str → PathItem S → Op S → Prop
  | get (pi : PathItem S) (op : Op S) : (path, pi) ∈ paths → pi.get = some op → Documented paths path "GET".toList pi op
  | post (pi : PathItem S) (op : Op S) : (path, pi) ∈ paths → pi.post = some op → Documented paths path "POST".toList pi op
  | put (pi : PathItem S) (op : Op S) : (path, pi) ∈ paths → pi.put = some op → Documented paths path "PUT".toList pi op
  | delete (pi : PathItem S) (op : Op S) : (path, pi) ∈ paths → pi.delete = some op → Documented paths path "DELETE".toList pi op
  | patch (pi : PathItem S) (op : Op S) : (path, pi) ∈ paths → pi.patch = some op → Documented paths path "PATCH".toList pi op
  | options (pi : PathItem S) (op : Op S) : (path, pi) ∈ paths → pi.options = some op → Documented paths path "OPTIONS".toList pi op
  | head (pi : PathItem S) (op : Op S) : (path, pi) ∈ paths → pi.head = some op → Documented paths path "HEAD".toList pi op

/-- A map has no key twice. -/
def IsMap {A : Type} (m : List (Str × A)) : Prop := (m.map (·.1)).Nodup

/-- What may be said of a content: its JSON schema; without one, any other of its types; nothing if it is empty. -/
inductive Said {S : Type} (sum : S → Str) (content : Content S) : Str → Str → Prop
  | json (s : S) : ("application/json".toList, some s) ∈ content → Said sum content "application/json".toList (sum s)
  | jsonBare : ("application/json".toList, none) ∈ content → Said sum content "application/json".toList []
  | other (ct : Str) (s : S) : (∀ m, ("application/json".toList, m) ∉ content) → (ct, some s) ∈ content → Said sum content ct (sum s)
  | otherBare (ct : Str) : (∀ m, ("application/json".toList, m) ∉ content) → (ct, none) ∈ content → Said sum content ct []
  | nothing : content = [] → Said sum content [] []

/-! ### Lemmas -/

theorem lookup_some {A : Type} : ∀ (m : List (Str × A)) (k : Str) (v : A), m.lookup k = some v → (k, v) ∈ m := by
  intro m k v
  induction m with
  | nil => intro h; cases h
  | cons e m ih =>
    obtain ⟨q, w⟩ := e
    intro h
    rw [List.lookup_cons] at h
    cases hq : (k == q) with
    | true =>
      rw [hq] at h; cases h
      have : k = q := by simpa using hq
      subst this
      exact List.mem_cons_self
    | false => rw [hq] at h; exact List.mem_cons_of_mem _ (ih h)

theorem lookup_map {A : Type} : ∀ (m : List (Str × A)) (k : Str) (v : A), IsMap m → (k, v) ∈ m → m.lookup k = some v := by
  intro m k v
  induction m with
  | nil => intro _ h; cases h
  | cons e m ih =>
    obtain ⟨q, w⟩ := e
    intro ho hm
    have ho' : q ∉ m.map (·.1) ∧ (m.map (·.1)).Nodup := by
      have := ho; unfold IsMap at this; rw [List.map_cons, List.nodup_cons] at this; exact this
    rcases List.mem_cons.1 hm with h | h
    · cases h; simp [List.lookup_cons]
    · have hne : k ≠ q := by rintro rfl; exact ho'.1 (List.mem_map.mpr ⟨_, h, rfl⟩)
      rw [List.lookup_cons]
      have : (k == q) = false := by simpa using hne
      rw [this]
      exact ih ho'.2 h

theorem lookup_none {A : Type} : ∀ (m : List (Str × A)) (k : Str), m.lookup k = none → ∀ v, (k, v) ∉ m := by
  intro m k
  induction m with
  | nil => intro _ v h; cases h
  | cons e m ih =>
    obtain ⟨q, w⟩ := e
    intro h v hm
    rw [List.lookup_cons] at h
    cases hq : (k == q) with
    | true => rw [hq] at h; cases h
    | false =>
      rw [hq] at h
      rcases List.mem_cons.1 hm with h' | h'
      · cases h'; simp at hq
      · exact ih h v h'

theorem said_first {S : Type} (sum : S → Str) (c : Content S) : Said sum c (firstContent c).1 (summaryOf sum (firstContent c).2) := by
  unfold firstContent
  cases h : c.lookup json with
  | some mt =>
    have hm := lookup_some c json mt h
    cases mt with
    | none => exact .jsonBare hm
    | some s => exact .json s hm
  | none =>
    have hn := lookup_none c json h
    cases c with
    | nil => exact .nothing rfl
    | cons e c =>
      obtain ⟨ct, mt⟩ := e
      cases mt with
      | none => exact .otherBare ct hn List.mem_cons_self
      | some s => exact .other ct s hn List.mem_cons_self

theorem operationFor_iff {S : Type} (paths : List (Str × PathItem S)) (path method : Str) (pi : PathItem S) (op : Op S) (hp : (path, pi) ∈ paths) :
    operationFor pi method = some op ↔ Documented paths path method pi op := by
  constructor
  · intro h
    unfold operationFor at h
    split at h
    · next hm => subst hm; exact .get pi op hp h
    · split at h
      · next hm => subst hm; exact .post pi op hp h
      · split at h
        · next hm => subst hm; exact .put pi op hp h
        · split at h
          · next hm => subst hm; exact .delete pi op hp h
          · split at h
            · next hm => subst hm; exact .patch pi op hp h
            · split at h
              · next hm => subst hm; exact .options pi op hp h
              · split at h
                · next hm => subst hm; exact .head pi op hp h
                · cases h
  · intro h
    cases h <;> simp_all [operationFor]

/-! ### The properties -/

/-- An endpoint is found exactly if the document has the operation; it is reported under its own identity. -/
theorem C117_found {S : Type} (sum : S → Str) (sortS : List Str → List Str) (paths : List (Str × PathItem S)) (hm : IsMap paths) (method path : Str) :
    ((buildEndpoint sum sortS paths method path).found = true ↔ ∃ pi op, Documented paths path method pi op) ∧
    ∀ pi op, Documented paths path method pi op →
      (buildEndpoint sum sortS paths method path).handler = op.id ∧ (buildEndpoint sum sortS paths method path).summary = op.summary := by
  have mem : ∀ pi op, Documented paths path method pi op → (path, pi) ∈ paths := by intro pi op h; cases h <;> assumption
  constructor
  · unfold buildEndpoint
    cases hl : paths.lookup path with
    | none =>
      refine ⟨(fun h => by cases h), ?_⟩
      rintro ⟨pi, op, h⟩
      exact absurd (mem pi op h) (lookup_none paths path hl pi)
    | some pi =>
      have hp := lookup_some paths path pi hl
      dsimp only
      cases ho : operationFor pi method with
      | none =>
        refine ⟨(fun h => by cases h), ?_⟩
        rintro ⟨pi', op, h⟩
        have := lookup_map paths path pi' hm (mem pi' op h)
        rw [hl] at this
        cases this
        rw [(operationFor_iff paths path method pi op hp).2 h] at ho
        cases ho
      | some op => exact ⟨fun _ => ⟨pi, op, (operationFor_iff paths path method pi op hp).1 ho⟩, fun _ => rfl⟩
  · intro pi op h
    have hp := mem pi op h
    unfold buildEndpoint
    rw [lookup_map paths path pi hm hp]
    dsimp only
    rw [(operationFor_iff paths path method pi op hp).2 h]
    exact ⟨rfl, rfl⟩

theorem build_eq {S : Type} (sum : S → Str) (sortS : List Str → List Str) (paths : List (Str × PathItem S)) (hm : IsMap paths) (method path : Str)
    (pi : PathItem S) (op : Op S) (h : Documented paths path method pi op) :
    buildEndpoint sum sortS paths method path = ⟨true, method, op.id, op.summary, requestOf sum op.body, responsesOf sum sortS op.responses, paramsOf sum pi.params op.params⟩ := by
  have hp : (path, pi) ∈ paths := by cases h <;> assumption
  unfold buildEndpoint
  rw [lookup_map paths path pi hm hp]
  dsimp only
  rw [(operationFor_iff paths path method pi op hp).2 h]

/-- Each documented response is reported once, in the order of the statuses, with what may be said of its content. -/
theorem C117_responses {S : Type} (sum : S → Str) (sortS : List Str → List Str) (hs : SortsBy slt sortS) (paths : List (Str × PathItem S)) (hm : IsMap paths)
    (method path : Str) (pi : PathItem S) (op : Op S) (h : Documented paths path method pi op) (hr : IsMap op.responses) :
    ((buildEndpoint sum sortS paths method path).responses.map (·.1)).Perm (op.responses.map (·.1)) ∧
    ((buildEndpoint sum sortS paths method path).responses.map (·.1)).Pairwise (fun a b => slt a b = true) ∧
    ∀ st ct s, (st, ct, s) ∈ (buildEndpoint sum sortS paths method path).responses → ∃ content, (st, content) ∈ op.responses ∧ Said sum content ct s := by
  rw [build_eq sum sortS paths hm method path pi op h]
  dsimp only
  have hst : (responsesOf sum sortS op.responses).map (·.1) = sortS (op.responses.map (·.1)) := by
    unfold responsesOf
    rw [List.map_map]
    exact List.map_id _
  rw [hst]
  refine ⟨(hs _).1, ?_, ?_⟩
  · have hnd : (sortS (op.responses.map (·.1))).Nodup := (hs _).1.nodup_iff.2 hr
    refine List.Pairwise.imp₂ ?_ (hs (op.responses.map (·.1))).2 hnd
    intro a b hba hne
    cases hab : slt a b with
    | true => rfl
    | false => exact absurd (slt_total a b hab hba) hne
  · intro st ct s hx
    unfold responsesOf at hx
    obtain ⟨st', hst', he⟩ := List.mem_map.1 hx
    dsimp only at he
    have e1 : st' = st := congrArg Prod.fst he
    have e2 : (firstContent ((op.responses.lookup st').getD [])).1 = ct := congrArg (fun x => x.2.1) he
    have e3 : summaryOf sum (firstContent ((op.responses.lookup st').getD [])).2 = s := congrArg (fun x => x.2.2) he
    subst e1 e2 e3
    obtain ⟨⟨st'', content⟩, hc, he⟩ := List.mem_map.1 ((hs _).1.mem_iff.1 hst')
    have he : st'' = st' := he
    subst he
    refine ⟨content, hc, ?_⟩
    rw [lookup_map op.responses st'' content hr hc]
    exact said_first sum content

/-- A request is reported if the operation has a body with content, with what may be said of it and whether it is required. -/
theorem C117_request {S : Type} (sum : S → Str) (sortS : List Str → List Str) (paths : List (Str × PathItem S)) (hm : IsMap paths) (method path : Str)
    (pi : PathItem S) (op : Op S) (h : Documented paths path method pi op) :
    (op.body = none → (buildEndpoint sum sortS paths method path).request = none) ∧
    (∀ content req, op.body = some (content, req) → content ≠ [] → (∀ m, (([] : Str), m) ∉ content) →
      ∃ ct s, Said sum content ct s ∧ (buildEndpoint sum sortS paths method path).request = some (ct, s, req)) ∧
    ∀ req, op.body = some ([], req) → (buildEndpoint sum sortS paths method path).request = none := by
  rw [build_eq sum sortS paths hm method path pi op h]
  dsimp only
  refine ⟨fun hb => by rw [hb]; rfl, fun content req hb hne hnm => ?_, fun req hb => by rw [hb]; rfl⟩
  rw [hb]
  have hs := said_first sum content
  refine ⟨_, _, hs, ?_⟩
  unfold requestOf
  dsimp only
  rw [if_pos]
  intro h0
  rw [h0] at hs
  generalize hz : ([] : Str) = z at hs
  generalize summaryOf sum (firstContent content).2 = y at hs
  cases hs with
  | json s _ => exact absurd hz (by decide)
  | jsonBare _ => exact absurd hz (by decide)
  | other _ s _ hin => subst hz; exact hnm _ hin
  | otherBare _ _ hin => subst hz; exact hnm _ hin
  | nothing he => exact hne he

/-- The parameters reported are those of the path, then those of the operation, each with its own name, place, and whether
it is required. -/
theorem C117_params {S : Type} (sum : S → Str) (sortS : List Str → List Str) (paths : List (Str × PathItem S)) (hm : IsMap paths) (method path : Str)
    (pi : PathItem S) (op : Op S) (h : Documented paths path method pi op) :
    (buildEndpoint sum sortS paths method path).params.length = pi.params.length + op.params.length ∧
    (∀ (i : Nat) (p : Param S), pi.params[i]? = some p → ∃ s, (buildEndpoint sum sortS paths method path).params[i]? = some (p.name, p.place, p.required, s) ∧
      (p.schema = none → s = []) ∧ ∀ t, p.schema = some t → s = sum t) ∧
    ∀ (i : Nat) (p : Param S), op.params[i]? = some p → ∃ s, (buildEndpoint sum sortS paths method path).params[pi.params.length + i]? = some (p.name, p.place, p.required, s) ∧
      (p.schema = none → s = []) ∧ ∀ t, p.schema = some t → s = sum t := by
  rw [build_eq sum sortS paths hm method path pi op h]
  dsimp only
  unfold paramsOf
  have hsum : ∀ p : Param S, (p.schema = none → summaryOf sum p.schema = []) ∧ ∀ t, p.schema = some t → summaryOf sum p.schema = sum t := by
    intro p
    exact ⟨fun h => by rw [h]; rfl, fun t h => by rw [h]; rfl⟩
  refine ⟨by simp, fun i p hi => ⟨summaryOf sum p.schema, ?_, hsum p⟩, fun i p hi => ⟨summaryOf sum p.schema, ?_, hsum p⟩⟩
  · obtain ⟨hlt, _⟩ := List.getElem?_eq_some_iff.1 hi
    rw [List.getElem?_map, List.getElem?_append_left hlt, hi]
    rfl
  · rw [List.getElem?_map, List.getElem?_append_right (Nat.le_add_right _ _), Nat.add_sub_cancel_left, hi]
    rfl

/-- What is said of a content does not depend on the order of a Go map, if there is JSON or only one type.  Missing:
`C117_arbitrary_content`. -/
theorem C117_one_content_partial {S : Type} (sum : S → Str) (c c' : Content S) (hp : c.Perm c') (hm : IsMap c)
    (hj : (∃ m, ("application/json".toList, m) ∈ c) ∨ c.length ≤ 1) (req : Bool) :
    firstContent c = firstContent c' ∧ requestOf sum (some (c, req)) = requestOf sum (some (c', req)) := by
  have key : firstContent c = firstContent c' := by
    have hm' : IsMap c' := (hp.map (fun x : Str × Option S => x.1)).nodup_iff.1 hm
    rcases hj with ⟨m, h⟩ | h
    · unfold firstContent
      have e1 : c.lookup json = some m := lookup_map c json m hm h
      have e2 : c'.lookup json = some m := lookup_map c' json m hm' (hp.mem_iff.1 h)
      rw [e1, e2]
    · match c, hp with
      | [], hp => rw [List.nil_perm.1 hp]
      | [x], hp => rw [List.singleton_perm.1 hp]
      | _ :: _ :: _, _ => simp at h
  refine ⟨key, ?_⟩
  unfold requestOf
  dsimp only
  rw [key]

/-- The responses reported do not depend on the order in which the map of responses is walked. -/
theorem C117_responses_order {S : Type} (sum : S → Str) (s1 s2 : List Str → List Str) (h1 : SortsBy slt s1) (h2 : SortsBy slt s2)
    (rs rs' : List (Str × Content S)) (hp : rs.Perm rs') (hm : IsMap rs) : responsesOf sum s1 rs = responsesOf sum s2 rs' := by
  have hm' : IsMap rs' := (hp.map (fun x : Str × Content S => x.1)).nodup_iff.1 hm
  have hsort : s1 (rs.map (·.1)) = s2 (rs'.map (·.1)) := by
    refine List.Perm.eq_of_pairwise (le := fun a b => slt b a = false) ?_ (h1 _).2 (h2 _).2 ((h1 _).1.trans ((hp.map (·.1)).trans (h2 _).1.symm))
    intro a b _ _ hab hba
    exact slt_total a b hba hab
  unfold responsesOf
  rw [← hsort]
  refine List.map_congr_left ?_
  intro st hst
  obtain ⟨⟨st', content⟩, hc, he⟩ := List.mem_map.1 ((h1 _).1.mem_iff.1 hst)
  have he : st' = st := he
  subst he
  dsimp only
  rw [lookup_map rs st' content hm hc, lookup_map rs' st' content hm' (hp.mem_iff.1 hc)]

/-- The name shown for a component is that of the type, if its name has no underscore. -/
theorem C117_short_name_partial (pkg name : Str) (hn : '_' ∉ name) : shortName (pkg ++ '_' :: name) = name := by
  unfold shortName afterLast
  rw [if_pos (by simp)]
  dsimp only
  have he : (pkg ++ '_' :: name).reverse = name.reverse ++ '_' :: pkg.reverse := by simp
  rw [he, List.takeWhile_append_of_pos]
  · simp
  · intro x hx
    have : x ∈ name := by simpa using hx
    simpa using fun q : x = '_' => hn (q ▸ this)

/-! ### Instances and what does not hold -/

abbrev c (s : String) : Str := s.toList

/-- Schemas are their summaries here. -/
abbrev demoOp : Op Str :=
  ⟨c "app.Get", c "Get", some ([(c "application/xml", some (c "A")), (c "application/json", some (c "B"))], true),
   [(c "404", []), (c "200", [(c "text/plain", some (c "string"))])], [⟨c "id", c "path", true, some (c "integer")⟩]⟩

abbrev demo : List (Str × PathItem Str) :=
  [(c "/u/{id}", ⟨some demoOp, none, none, none, none, none, none, [⟨c "id", c "path", true, some (c "string")⟩]⟩)]

/-- A sort of texts. -/
def insertS (a : Str) : List Str → List Str
  | [] => [a]
  | b :: l => if slt b a then b :: insertS a l else a :: b :: l

def sortTexts : List Str → List Str
  | [] => []
  | a :: l => insertS a (sortTexts l)

theorem insertS_perm (a : Str) (l : List Str) : (insertS a l).Perm (a :: l) := by
  induction l with
  | nil => exact List.Perm.refl _
  | cons b l ih =>
    unfold insertS
    split
    · exact (List.Perm.cons b ih).trans (List.Perm.swap a b l)
    · exact List.Perm.refl _

/-- The hypothesis of the theorems about the order is met by a sort. -/
theorem sortTexts_sorts : SortsBy slt sortTexts := by
  intro l
  induction l with
  | nil => exact ⟨List.Perm.refl _, List.Pairwise.nil⟩
  | cons a l ih =>
    refine ⟨(insertS_perm a _).trans (List.Perm.cons a ih.1), ?_⟩
    have key : ∀ l : List Str, l.Pairwise (fun a b => slt b a = false) → (insertS a l).Pairwise (fun a b => slt b a = false) := by
      intro l
      induction l with
      | nil => intro _; exact List.pairwise_singleton _ _
      | cons b l ihl =>
        intro hp
        rw [List.pairwise_cons] at hp
        unfold insertS
        split
        · next hba =>
          rw [List.pairwise_cons]
          refine ⟨fun x hx => ?_, ihl hp.2⟩
          rcases List.mem_cons.1 ((insertS_perm a l).mem_iff.1 hx) with rfl | hx
          · cases hxb : slt x b with
            | false => rfl
            | true => have := Verif.Browse.slt_trans x b x hxb hba; rw [Verif.Browse.slt_irrefl] at this; cases this
          · exact hp.1 x hx
        · next hba =>
          have hba : slt b a = false := by simpa using hba
          rw [List.pairwise_cons, List.pairwise_cons]
          refine ⟨fun x hx => ?_, hp⟩
          rcases List.mem_cons.1 hx with rfl | hx
          · exact hba
          · exact Verif.Browse.slt_incomparable x b a (hp.1 x hx) hba
    exact key _ ih.2

example : IsMap demo ∧ IsMap demoOp.responses ∧ Documented demo (c "/u/{id}") "GET".toList ⟨some demoOp, none, none, none, none, none, none, [⟨c "id", c "path", true, some (c "string")⟩]⟩ demoOp :=
  ⟨by unfold IsMap; decide, by unfold IsMap; decide, .get _ _ List.mem_cons_self rfl⟩

example : (buildEndpoint id sortTexts demo (c "GET") (c "/u/{id}")).responses = [(c "200", c "text/plain", c "string"), (c "404", [], [])] ∧
    (buildEndpoint id sortTexts demo (c "GET") (c "/u/{id}")).request = some (c "application/json", c "B", true) := by decide

/-- Without JSON the type that is reported is the one a Go map happens to give first. -/
theorem C117_arbitrary_content :
    let a : Content Str := [(c "application/xml", some (c "A")), (c "text/csv", some (c "B"))]
    let b : Content Str := [(c "text/csv", some (c "B")), (c "application/xml", some (c "A"))]
    a.Perm b ∧ requestOf id (some (a, true)) ≠ requestOf id (some (b, true)) :=
  ⟨List.Perm.swap _ _ _, by decide⟩

/-- A parameter of the path that the operation replaces is reported twice, with both types. -/
theorem C117_param_twice : (buildEndpoint id sortTexts demo (c "GET") (c "/u/{id}")).params =
    [(c "id", c "path", true, c "string"), (c "id", c "path", true, c "integer")] := by decide

/-- Two components with different names are shown with the same one. -/
theorem C117_names_collide : c "app_User_V2" ≠ c "app_Order_V2" ∧ shortName (c "app_User_V2") = shortName (c "app_Order_V2") := by decide

end Verif.Endpoint
