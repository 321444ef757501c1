import Verif.EmbedModel

/-!
# C76: the properties of a struct are the keys of its JSON

The specification is `encoding/json`'s: fields of embedded structs are promoted, the
shallowest field of a name wins, then the one with a tag, and otherwise none.
-/

namespace Verif.Embed

open Verif.Common

/-! ## Specification -/

/-- Where a key's value comes from: a field, an embedded type as a whole, or something in
an embedded struct. -/
inductive Origin where
  | field (name : String)
  | whole (ty : String)
  | via (ty : String) (o : Origin)
  deriving DecidableEq

/-- `encoding/json` considers this origin for the key `k`, so many levels down, with or
without a tag.  `structs` are the declared structs. -/
inductive Candidate (structs : String → Option (List Line)) (exported : String → Bool) :
    List Line → Nat → String → Bool → Origin → Prop where
  /-- A field goes under its tag's name or its own. -/
  | tagged {s l n k} : l ∈ s → n ∈ l.names → exported n = true → l.tag.skip = false →
      l.tag.name = some k → Candidate structs exported s 0 k true (.field n)
  | plain {s l n} : l ∈ s → n ∈ l.names → exported n = true → l.tag.skip = false →
      l.tag.name = none → Candidate structs exported s 0 n false (.field n)
  /-- An embedded type with a name in its tag is like a field. -/
  | named {s l k} : l ∈ s → l.names = [] → l.tag.skip = false → l.tag.name = some k →
      Candidate structs exported s 0 k true (.whole l.ty)
  /-- So is one that is not a struct. -/
  | scalar {s l k} : l ∈ s → l.names = [] → l.tag.skip = false → l.tag.name = none →
      structs l.ty = none → exported l.ty = true → k = l.ty →
      Candidate structs exported s 0 k false (.whole l.ty)
  /-- The fields of other embedded structs are one level further down. -/
  | promoted {s l s' d k t o} : l ∈ s → l.names = [] → l.tag.skip = false →
      l.tag.name = none → structs l.ty = some s' → Candidate structs exported s' d k t o →
      Candidate structs exported s (d + 1) k t (.via l.ty o)

/-- The key is written, with the value of this origin: every other candidate is further
down, or as deep and without a tag where this one has one. -/
def Key (structs : String → Option (List Line)) (exported : String → Bool) (s : List Line)
    (k : String) (o : Origin) : Prop :=
  ∃ d t, Candidate structs exported s d k t o ∧
    ∀ d' t' o', Candidate structs exported s d' k t' o' → o' ≠ o →
      d < d' ∨ d = d' ∧ t = true ∧ t' = false

/-- The struct itself has one thing at most for each key. -/
def Apart (structs : String → Option (List Line)) (exported : String → Bool) (s : List Line) :
    Prop :=
  ∀ k t t' o o', Candidate structs exported s 0 k t o → Candidate structs exported s 0 k t' o' →
    o = o'

/-! ## Proof -/

theorem mem_fields {s : List Line} {n : String} {g : Tag} :
    (n, g) ∈ (processStructFields s).fields ↔ ∃ l ∈ s, n ∈ l.names ∧ g = l.tag := by
  induction s with
  | nil => simp [processStructFields]
  | cons l r ih =>
    unfold processStructFields
    dsimp only
    split
    · rename_i h
      simp [ih, h]
    · simp only [List.mem_append, List.mem_map, Prod.mk.injEq, ih, List.mem_cons]
      constructor
      · rintro (⟨m, hm, rfl, rfl⟩ | ⟨l', hl, hn, rfl⟩)
        · exact ⟨l, Or.inl rfl, hm, rfl⟩
        · exact ⟨l', Or.inr hl, hn, rfl⟩
      · rintro ⟨l', rfl | hl, hn, rfl⟩
        · exact Or.inl ⟨n, hn, rfl, rfl⟩
        · exact Or.inr ⟨l', hl, hn, rfl⟩

/-- A field that is written, and its key. -/
def Shown (exported : String → Bool) (k : String) (f : String × Tag) : Prop :=
  exported f.1 = true ∧ f.2.skip = false ∧ f.2.name.getD f.1 = k

theorem mget_add {exported : String → Bool} {m : List (String × String)} {f : String × Tag}
    {k : String} : (Shown exported k f ∧ mget (addProperty exported m f) k = some f.1) ∨
      (¬ Shown exported k f ∧ mget (addProperty exported m f) k = mget m k) := by
  unfold addProperty Shown
  split
  · rename_i h
    refine Or.inr ⟨?_, rfl⟩
    rintro ⟨h1, h2, _⟩
    simp [h1, h2] at h
  · rename_i h
    simp only [Bool.or_eq_true, Bool.not_eq_true', not_or, Bool.not_eq_true, Bool.not_eq_false]
      at h
    by_cases hk : f.2.name.getD f.1 = k
    · exact Or.inl ⟨⟨h.2, h.1, hk⟩, by rw [← hk, mget_mset_self]⟩
    · refine Or.inr ⟨fun h' => hk h'.2.2, mget_mset_ne _ _ (Ne.symm hk)⟩

theorem mget_fold {exported : String → Bool} {k n : String} : ∀ (fs : List (String × Tag))
    (m : List (String × String)), mget (fs.foldl (addProperty exported) m) k = some n ↔
      (∃ a g b, fs = a ++ (n, g) :: b ∧ Shown exported k (n, g) ∧ ∀ f ∈ b, ¬ Shown exported k f) ∨
      (mget m k = some n ∧ ∀ f ∈ fs, ¬ Shown exported k f) := by
  intro fs
  induction fs with
  | nil => intro m; simp
  | cons f r ih =>
    intro m
    simp only [List.foldl_cons, ih, List.forall_mem_cons]
    constructor
    · rintro (⟨a, g, b, rfl, h1, h2⟩ | ⟨h1, h2⟩)
      · exact Or.inl ⟨f :: a, g, b, rfl, h1, h2⟩
      · rcases mget_add (exported := exported) (m := m) (f := f) (k := k) with ⟨h3, h4⟩ | ⟨h3, h4⟩
        · rw [h4] at h1
          obtain ⟨x, g⟩ := f
          simp only [Option.some.injEq] at h1
          subst h1
          exact Or.inl ⟨[], g, r, rfl, h3, h2⟩
        · exact Or.inr ⟨by rw [← h4]; exact h1, h3, h2⟩
    · rintro (⟨a, g, b, h, h1, h2⟩ | ⟨h1, h2, h3⟩)
      · cases a with
        | nil =>
          simp only [List.nil_append, List.cons.injEq] at h
          obtain ⟨rfl, rfl⟩ := h
          refine Or.inr ⟨?_, h2⟩
          rcases mget_add (exported := exported) (m := m) (f := (n, g)) (k := k) with
            ⟨_, h4⟩ | ⟨h3, _⟩
          · exact h4
          · exact absurd h1 h3
        | cons x a =>
          simp only [List.cons_append, List.cons.injEq] at h
          obtain ⟨rfl, rfl⟩ := h
          exact Or.inl ⟨a, g, b, rfl, h1, h2⟩
      · rcases mget_add (exported := exported) (m := m) (f := f) (k := k) with ⟨h4, _⟩ | ⟨_, h4⟩
        · exact absurd h4 h2
        · exact Or.inr ⟨by rw [h4]; exact h1, h3⟩

theorem shown_candidate {structs : String → Option (List Line)} {exported : String → Bool}
    {s : List Line} {k n : String} {g : Tag} (h : (n, g) ∈ (processStructFields s).fields)
    (hs : Shown exported k (n, g)) : ∃ t, Candidate structs exported s 0 k t (.field n) := by
  obtain ⟨l, hl, hn, rfl⟩ := mem_fields.1 h
  obtain ⟨h1, h2, h3⟩ := hs
  cases hg : l.tag.name with
  | none =>
    simp only [hg, Option.getD_none] at h3
    subst h3
    exact ⟨false, .plain hl hn h1 h2 hg⟩
  | some x =>
    simp only [hg, Option.getD_some] at h3
    subst h3
    exact ⟨true, .tagged hl hn h1 h2 hg⟩

theorem candidate_shown {structs : String → Option (List Line)} {exported : String → Bool}
    {s : List Line} {d : Nat} {k n : String} {t : Bool}
    (h : Candidate structs exported s d k t (.field n)) :
    d = 0 ∧ ∃ g, (n, g) ∈ (processStructFields s).fields ∧ Shown exported k (n, g) := by
  cases h with
  | tagged h1 h2 h3 h4 h5 =>
    exact ⟨rfl, _, mem_fields.2 ⟨_, h1, h2, rfl⟩, h3, h4, by simp [h5]⟩
  | plain h1 h2 h3 h4 h5 =>
    exact ⟨rfl, _, mem_fields.2 ⟨_, h1, h2, rfl⟩, h3, h4, by simp [h5]⟩

theorem last_shown {exported : String → Bool} {k : String} :
    ∀ (fs : List (String × Tag)), (∃ f ∈ fs, Shown exported k f) →
      ∃ a n g b, fs = a ++ (n, g) :: b ∧ Shown exported k (n, g) ∧ ∀ f ∈ b, ¬ Shown exported k f := by
  intro fs
  induction fs with
  | nil => rintro ⟨f, hf, _⟩; cases hf
  | cons x r ih =>
    intro h
    by_cases hr : ∃ f ∈ r, Shown exported k f
    · obtain ⟨a, n, g, b, rfl, h1, h2⟩ := ih hr
      exact ⟨x :: a, n, g, b, rfl, h1, h2⟩
    · obtain ⟨f, hf, hs⟩ := h
      rcases List.mem_cons.1 hf with rfl | hf
      · exact ⟨[], f.1, f.2, r, rfl, hs, fun f hf hs' => hr ⟨f, hf, hs'⟩⟩
      · exact absurd ⟨f, hf, hs⟩ hr

/-! ## Theorems -/

/-- Some field of the struct itself is written under `k`. -/
def Direct (exported : String → Bool) (s : List Line) (k n : String) : Prop :=
  ∃ l ∈ s, n ∈ l.names ∧ exported n = true ∧ l.tag.skip = false ∧
    (l.tag.name = some k ∨ l.tag.name = none ∧ n = k)

theorem direct_iff {exported : String → Bool} {s : List Line} {k n : String} :
    Direct exported s k n ↔ ∃ g, (n, g) ∈ (processStructFields s).fields ∧
      Shown exported k (n, g) := by
  constructor
  · rintro ⟨l, h1, h2, h3, h4, h5⟩
    refine ⟨l.tag, mem_fields.2 ⟨l, h1, h2, rfl⟩, h3, h4, ?_⟩
    rcases h5 with h5 | ⟨h5, rfl⟩ <;> simp [h5]
  · rintro ⟨g, h1, h2, h3, h4⟩
    obtain ⟨l, hl, hn, rfl⟩ := mem_fields.1 h1
    refine ⟨l, hl, hn, h2, h3, ?_⟩
    cases hg : l.tag.name with
    | none => simp only [hg, Option.getD_none] at h4; exact Or.inr ⟨rfl, h4⟩
    | some x => simp only [hg, Option.getD_some] at h4; exact Or.inl (by rw [h4])

/-- **C76, for every struct.**  The properties are the keys of the struct's own fields
that are written: no more, and no fewer. -/
theorem C76_own_fields (exported : String → Bool) (s : List Line) (k : String) :
    (∃ n, mget (properties exported (processStructFields s)) k = some n) ↔
      ∃ n, Direct exported s k n := by
  unfold properties
  simp only [mget_fold, mget_nil, direct_iff]
  constructor
  · rintro ⟨n, ⟨a, g, b, h, h1, _⟩ | ⟨h, _⟩⟩
    · exact ⟨n, g, by rw [h]; simp, h1⟩
    · cases h
  · rintro ⟨n, g, h1, h2⟩
    obtain ⟨a, n', g', b, h3, h4, h5⟩ := last_shown _ ⟨_, h1, h2⟩
    exact ⟨n', Or.inl ⟨a, g', b, h3, h4, h5⟩⟩

/-- **C76.**  If the struct has one thing at most for each key, then a field's schema is
the property `k` exactly if `encoding/json` writes that field under `k`, whatever is
embedded. -/
theorem C76_field_partial {structs : String → Option (List Line)} {exported : String → Bool}
    {s : List Line} (ha : Apart structs exported s) (k n : String) :
    mget (properties exported (processStructFields s)) k = some n ↔
      Key structs exported s k (.field n) := by
  unfold properties
  rw [mget_fold]
  constructor
  · rintro (⟨a, g, b, h, h1, _⟩ | ⟨h, _⟩)
    · obtain ⟨t, hc⟩ := shown_candidate (structs := structs) (s := s) (by rw [h]; simp) h1
      refine ⟨0, t, hc, ?_⟩
      intro d' t' o' hc' hne
      cases d' with
      | zero => exact absurd (ha _ _ _ _ _ hc' hc) hne
      | succ d => exact Or.inl (by omega)
    · cases h
  · rintro ⟨d, t, hc, _⟩
    obtain ⟨rfl, g, h1, h2⟩ := candidate_shown hc
    obtain ⟨a, n', g', b, h3, h4, h5⟩ := last_shown _ ⟨_, h1, h2⟩
    obtain ⟨t', hc'⟩ := shown_candidate (structs := structs) (s := s) (by rw [h3]; simp) h4
    have := ha _ _ _ _ _ hc hc'
    simp only [Origin.field.injEq] at this
    subst this
    exact Or.inl ⟨a, g', b, h3, h4, h5⟩

/-- Without embedded types nothing is missing: every key is a property, made of the field
it is written from. -/
theorem C76_complete_partial {structs : String → Option (List Line)} {exported : String → Bool}
    {s : List Line} (ha : Apart structs exported s) (he : ∀ l ∈ s, l.names ≠ []) {k : String}
    {o : Origin} (h : Key structs exported s k o) :
    ∃ n, o = .field n ∧ mget (properties exported (processStructFields s)) k = some n := by
  obtain ⟨d, t, hc, hmin⟩ := h
  have ho : ∃ n, o = .field n := by
    cases hc with
    | tagged => exact ⟨_, rfl⟩
    | plain => exact ⟨_, rfl⟩
    | named h1 h2 => exact absurd h2 (he _ h1)
    | scalar h1 h2 => exact absurd h2 (he _ h1)
    | promoted h1 h2 => exact absurd h2 (he _ h1)
  obtain ⟨n, rfl⟩ := ho
  exact ⟨n, rfl, (C76_field_partial ha k n).2 ⟨d, t, hc, hmin⟩⟩

/-- **C76, what is missing.**  A key that comes from an embedded type, as a whole or one
of its fields, is never a property. -/
theorem C76_embedded_lost {structs : String → Option (List Line)} {exported : String → Bool}
    {s : List Line} (ha : Apart structs exported s) {k : String} {o : Origin}
    (h : Key structs exported s k o) (ho : ∀ n, o ≠ .field n) :
    mget (properties exported (processStructFields s)) k = none := by
  cases hm : mget (properties exported (processStructFields s)) k with
  | none => rfl
  | some n =>
    obtain ⟨d, t, hc, h1⟩ := (C76_field_partial ha k n).1 hm
    obtain ⟨d', t', hc', h2⟩ := h
    have e1 := h1 _ _ _ hc' (ho n)
    have e2 := h2 _ _ _ hc (Ne.symm (ho n))
    rcases e1 with e1 | ⟨e1, a1, a2⟩ <;> rcases e2 with e2 | ⟨e2, b1, b2⟩
    · omega
    · omega
    · omega
    · simp [a2] at b1

/-! ### The hypotheses are met -/

/-- `type Base struct { ID string `json:"id"`; Name string }`. -/
@[reducible] def exBase : List Line := [⟨["ID"], "string", { name := some "id" }⟩, ⟨["Name"], "string", {}⟩]

@[reducible] def exStructs : String → Option (List Line) :=
  fun t => if t = "Base" then some exBase else none

def exExported (n : String) : Bool := n ∈ ["ID", "Name", "Email", "Phone", "Base", "A", "B"]

/-- `type User struct { Base; Email, Phone string; Name string `json:"Name"`; secret int }`. -/
@[reducible] def exUser : List Line :=
  [⟨[], "Base", {}⟩, ⟨["Email", "Phone"], "string", {}⟩, ⟨["Name"], "string", { name := some "Name" }⟩,
   ⟨["secret"], "int", {}⟩]

theorem exUser_candidates {d : Nat} {k : String} {t : Bool} {o : Origin}
    (h : Candidate exStructs exExported exUser d k t o) :
    (d, k, t, o) ∈ [(0, "Email", false, .field "Email"), (0, "Phone", false, .field "Phone"),
      (0, "Name", true, .field "Name"), (1, "id", true, .via "Base" (.field "ID")),
      (1, "Name", false, .via "Base" (.field "Name"))] := by
  have hb : ∀ {d k t o}, Candidate exStructs exExported exBase d k t o →
      (d, k, t, o) ∈ [(0, "id", true, .field "ID"), (0, "Name", false, .field "Name")] := by
    intro d k t o h
    cases h with
    | tagged h1 h2 h3 h4 h5 =>
      simp only [List.mem_cons, List.not_mem_nil, or_false] at h1
      rcases h1 with rfl | rfl <;> simp_all
    | plain h1 h2 h3 h4 h5 =>
      simp only [List.mem_cons, List.not_mem_nil, or_false] at h1
      rcases h1 with rfl | rfl <;> simp_all
    | named h1 h2 | scalar h1 h2 | promoted h1 h2 =>
      simp only [List.mem_cons, List.not_mem_nil, or_false] at h1
      rcases h1 with rfl | rfl <;> simp at h2
  cases h with
  | tagged h1 h2 h3 h4 h5 =>
    simp only [List.mem_cons, List.not_mem_nil, or_false] at h1
    rcases h1 with rfl | rfl | rfl | rfl <;> simp_all
  | plain h1 h2 h3 h4 h5 =>
    simp only [List.mem_cons, List.not_mem_nil, or_false] at h1
    rcases h1 with rfl | rfl | rfl | rfl <;> simp_all
    exact absurd h3 (by decide)
  | named h1 h2 h3 h4 =>
    simp only [List.mem_cons, List.not_mem_nil, or_false] at h1
    rcases h1 with rfl | rfl | rfl | rfl <;> simp_all
  | scalar h1 h2 h3 h4 h5 =>
    simp only [List.mem_cons, List.not_mem_nil, or_false] at h1
    rcases h1 with rfl | rfl | rfl | rfl <;> simp_all
  | promoted h1 h2 h3 h4 h5 h6 =>
    simp only [List.mem_cons, List.not_mem_nil, or_false] at h1
    rcases h1 with rfl | rfl | rfl | rfl <;> simp at h2
    simp only [exStructs, if_true, Option.some.injEq] at h5
    subst h5
    have := hb h6
    simp only [List.mem_cons, Prod.mk.injEq, List.not_mem_nil, or_false] at this
    rcases this with ⟨rfl, rfl, rfl, rfl⟩ | ⟨rfl, rfl, rfl, rfl⟩ <;> simp

/-- The struct's own things are apart, although it embeds another `Name`. -/
example : Apart exStructs exExported exUser := by
  intro k t t' o o' h h'
  have h := exUser_candidates h
  have h' := exUser_candidates h'
  simp only [List.mem_cons, Prod.mk.injEq, List.not_mem_nil, or_false] at h h'
  rcases h with ⟨_, rfl, _, rfl⟩ | ⟨_, rfl, _, rfl⟩ | ⟨_, rfl, _, rfl⟩ | ⟨h, _⟩ | ⟨h, _⟩ <;>
    simp_all

example : properties exExported (processStructFields exUser) =
    [("Email", "Email"), ("Phone", "Phone"), ("Name", "Name")] := by decide

/-! ### Where the code falls short -/

/-- **C76, the failure for embedded structs.**  The JSON of a `User` that embeds `Base`
has the key `id`; its schema has no such property. -/
theorem C76_promoted_field_lost :
    Key exStructs exExported exUser "id" (.via "Base" (.field "ID")) ∧
    mget (properties exExported (processStructFields exUser)) "id" = none := by
  refine ⟨⟨1, true, ?_, ?_⟩, by decide⟩
  · exact .promoted (List.mem_cons_self ..) rfl rfl rfl rfl
      (.tagged (List.mem_cons_self ..) (List.mem_singleton.2 rfl) (by decide) rfl rfl)
  · intro d' t' o' h hne
    have h := exUser_candidates h
    simp only [List.mem_cons, Prod.mk.injEq, List.not_mem_nil, or_false] at h
    rcases h with ⟨_, h, _, _⟩ | ⟨_, h, _, _⟩ | ⟨_, h, _, _⟩ | ⟨_, _, _, h⟩ | ⟨_, h, _, _⟩
    · simp at h
    · simp at h
    · simp at h
    · exact absurd h hne
    · simp at h

/-- An embedded struct with a name in its tag, `Base `json:"base"``, is an object under
that name; the schema leaves it out as well. -/
theorem C76_named_embedding_lost :
    Key exStructs exExported [⟨[], "Base", { name := some "base" }⟩] "base" (.whole "Base") ∧
    properties exExported (processStructFields [⟨[], "Base", { name := some "base" }⟩]) = [] := by
  refine ⟨⟨0, true, .named (List.mem_cons_self ..) rfl rfl rfl, ?_⟩, by decide⟩
  intro d' t' o' h hne
  cases h with
  | named h1 _ _ _ => rw [List.mem_singleton.1 h1] at hne; exact absurd rfl hne
  | tagged h1 h2 => rw [List.mem_singleton.1 h1] at h2; cases h2
  | plain h1 h2 => rw [List.mem_singleton.1 h1] at h2; cases h2
  | scalar h1 _ _ h2 => rw [List.mem_singleton.1 h1] at h2; cases h2
  | promoted h1 _ _ h2 => rw [List.mem_singleton.1 h1] at h2; cases h2

/-- **C76, the failure for equal names.**  Of two fields with the same name in their tags
`encoding/json` writes neither; the schema has the second one. -/
theorem C76_same_name_kept :
    (∀ o, ¬ Key exStructs exExported
      [⟨["A"], "int", { name := some "x" }⟩, ⟨["B"], "string", { name := some "x" }⟩] "x" o) ∧
    properties exExported (processStructFields
      [⟨["A"], "int", { name := some "x" }⟩, ⟨["B"], "string", { name := some "x" }⟩]) =
      [("x", "B")] := by
  refine ⟨?_, by decide⟩
  have hA : Candidate exStructs exExported
      [⟨["A"], "int", { name := some "x" }⟩, ⟨["B"], "string", { name := some "x" }⟩] 0 "x" true
      (.field "A") :=
    .tagged (List.mem_cons_self ..) (List.mem_singleton.2 rfl) (by decide) rfl rfl
  have hB : Candidate exStructs exExported
      [⟨["A"], "int", { name := some "x" }⟩, ⟨["B"], "string", { name := some "x" }⟩] 0 "x" true
      (.field "B") :=
    .tagged (List.mem_cons_of_mem _ (List.mem_cons_self ..)) (List.mem_singleton.2 rfl)
      (by decide) rfl rfl
  rintro o ⟨d, t, _, h⟩
  by_cases ho : o = .field "A"
  · subst ho
    rcases h _ _ _ hB (by decide) with h | ⟨_, _, h⟩
    · omega
    · cases h
  · rcases h _ _ _ hA (Ne.symm ho) with h | ⟨_, _, h⟩
    · omega
    · cases h

/-- A tag takes precedence over a field's own name; the schema has whichever comes last. -/
theorem C76_tag_precedence_lost :
    Key exStructs exExported [⟨["A"], "int", { name := some "B" }⟩, ⟨["B"], "string", {}⟩] "B"
      (.field "A") ∧
    properties exExported (processStructFields
      [⟨["A"], "int", { name := some "B" }⟩, ⟨["B"], "string", {}⟩]) = [("B", "B")] := by
  refine ⟨⟨0, true, .tagged (List.mem_cons_self ..) (List.mem_singleton.2 rfl) (by decide) rfl rfl,
    ?_⟩, by decide⟩
  intro d' t' o' h hne
  cases h with
  | tagged h1 h2 _ _ h3 =>
    simp only [List.mem_cons, List.not_mem_nil, or_false] at h1
    rcases h1 with rfl | rfl
    · rw [List.mem_singleton.1 h2] at hne; exact absurd rfl hne
    · cases h3
  | plain => exact Or.inr ⟨rfl, rfl, rfl⟩
  | named h1 h2 | scalar h1 h2 | promoted h1 h2 =>
    simp only [List.mem_cons, List.not_mem_nil, or_false] at h1
    rcases h1 with rfl | rfl <;> cases h2

/-- **C76, the failure for inline structs of variables.**  For `var v struct { Base }` the
schema has a property `Base`, which is not a key: the JSON has `id` and `Name`. -/
theorem C76_inline_embedding :
    properties exExported (buildAnonStructType [⟨[], "Base", {}⟩]) = [("Base", "Base")] ∧
    (∀ o, ¬ Key exStructs exExported [⟨[], "Base", {}⟩] "Base" o) ∧
    Candidate exStructs exExported [⟨[], "Base", {}⟩] 1 "id" true (.via "Base" (.field "ID")) := by
  refine ⟨by decide, ?_, .promoted (List.mem_cons_self ..) rfl rfl rfl rfl
      (.tagged (List.mem_cons_self ..) (List.mem_singleton.2 rfl) (by decide) rfl rfl)⟩
  rintro o ⟨d, t, h, _⟩
  cases h with
  | tagged h1 h2 => rw [List.mem_singleton.1 h1] at h2; cases h2
  | plain h1 h2 => rw [List.mem_singleton.1 h1] at h2; cases h2
  | named h1 _ _ h2 => rw [List.mem_singleton.1 h1] at h2; cases h2
  | scalar h1 _ _ _ h2 => rw [List.mem_singleton.1 h1] at h2; simp at h2
  | promoted h1 _ _ _ h2 h3 =>
    rw [List.mem_singleton.1 h1] at h2
    simp only [exStructs, if_true, Option.some.injEq] at h2
    subst h2
    cases h3 with
    | tagged h1 _ _ _ h3 =>
      simp only [List.mem_cons, List.not_mem_nil, or_false] at h1
      rcases h1 with rfl | rfl <;> simp at h3
    | plain h1 h2 =>
      simp only [List.mem_cons, List.not_mem_nil, or_false] at h1
      rcases h1 with rfl | rfl <;> simp at h2
    | scalar h1 h2 | promoted h1 h2 | named h1 h2 =>
      simp only [List.mem_cons, List.not_mem_nil, or_false] at h1
      rcases h1 with rfl | rfl <;> simp at h2

end Verif.Embed
