import Verif.RouteExtractModel
import Verif.PresetProps
import Verif.MethodsInfer
import Verif.SubsumeProps
/-!
# C98: a registration documents the verb, path and handler it registers
-/

namespace Verif.RouteExtract
open Verif.MethodsModel (Uni trimBy isValid validMethods ascii defaultExtraction methodFromName)
open Verif.Preset (CallPat patOk rxMatch anchored patOk_iff name_iff exact_iff On muxRouter muxRoute receivers majors verb_iff VerbName Ascii)

/-! ## Specification -/

/-- The HTTP methods. -/
def HttpVerbs : List String := ["GET", "HEAD", "POST", "PUT", "PATCH", "DELETE", "CONNECT", "OPTIONS", "TRACE"]

/-- `strings.ToUpper` on ASCII text. -/
def up (s : Str) : Str := s.map Char.toUpper

/-- `s` is an HTTP method in some capitalisation, `v` the method. -/
def Spelled (s v : Str) : Prop := v ∈ HttpVerbs.map String.toList ∧ s.map Char.toUpper = v

/-- An argument whose constant value is the text `s`. -/
def Const (a : Arg) (s : Str) : Prop := a.value = '"' :: s ++ ['"']

/-- A text with a character that no verb has and that is no quote: every path, every qualified name. -/
def NoVerb (s : Str) : Prop := ∃ c ∈ s, c ≠ '"' ∧ c ≠ '\'' ∧ c.isAlpha = false

/-- An argument that is no verb: not a constant, or constant and rendered as texts that are no verbs. -/
def Plain (a : Arg) : Prop := a.value = [] ∨ (NoVerb a.value ∧ NoVerb a.info)

/-- The path documented for a text: `/` if it is empty. -/
def shown (s : Str) : Str := if s = [] then ['/'] else s

/-! ## One pattern matches -/

theorem executeGo_skip (u : Uni) (f : Str → Str) (c : Call) : ∀ (ps : List (CallPat × RPat)) (s : Info × Bool × Nat),
    (∀ x ∈ ps, patOk c.name c.forms x.1 = false) → executeGo u f c ps s = s
  | [], s, _ => rfl
  | (t, p) :: ps, (r, found, best), h => by
    rw [executeGo, if_pos (h (t, p) (List.mem_cons_self ..))]
    exact executeGo_skip u f c ps _ fun x hx => h x (List.mem_cons_of_mem _ hx)

theorem executeGo_append (u : Uni) (f : Str → Str) (c : Call) : ∀ (a b : List (CallPat × RPat)) (s : Info × Bool × Nat),
    executeGo u f c (a ++ b) s = executeGo u f c b (executeGo u f c a s)
  | [], b, s => rfl
  | (t, p) :: a, b, (r, found, best) => by
    rw [List.cons_append, executeGo, executeGo]
    exact executeGo_append u f c a b _

theorem execute_one {u : Uni} {f : Str → Str} {c : Call} {a b : List (CallPat × RPat)} {t : CallPat} {p : RPat} (r : Info)
    (ha : ∀ x ∈ a, patOk c.name c.forms x.1 = false) (hb : ∀ x ∈ b, patOk c.name c.forms x.1 = false) (ht : patOk c.name c.forms t = true) :
    execute u f (a ++ (t, p) :: b) c r = (extractRoute u f p c r).1 := by
  unfold execute
  rw [executeGo_append, executeGo_skip u f c a _ ha, executeGo, if_neg (by rw [ht]; decide), if_pos (Or.inl rfl), executeGo_skip u f c b _ hb]

theorem patOk_name {name : Str} {forms : List Str} {p : CallPat} (hc : p.call ≠ "") (h : rxMatch p.call name = false) : patOk name forms p = false := by
  simp [patOk, hc, h]

theorem skip_names {name : Str} {forms : List Str} {a : List (CallPat × RPat)}
    (h : a.all (fun x => decide (x.1.call ≠ "") && !rxMatch x.1.call name) = true) : ∀ x ∈ a, patOk name forms x.1 = false := by
  intro x hx
  have := List.all_eq_true.1 h x hx
  simp only [Bool.and_eq_true, decide_eq_true_eq, Bool.not_eq_true'] at this
  exact patOk_name this.1 this.2

/-! ## Verbs -/

theorem mem_trim {p : Char → Bool} {c : Char} (hc : p c = false) {s : Str} (h : c ∈ s) : c ∈ trimBy p s := by
  have key : ∀ (s : Str), c ∈ s → c ∈ s.dropWhile p := by
    intro s
    induction s with
    | nil => intro h; exact h
    | cons x s ih =>
      intro h
      by_cases hx : p x = true
      · rw [List.dropWhile_cons_of_pos (p := p) hx]
        rcases List.mem_cons.1 h with e | h
        · rw [e, hx] at hc; exact absurd hc (by decide)
        · exact ih h
      · rw [List.dropWhile_cons_of_neg (p := p) hx]; exact h
  unfold trimBy
  rw [List.mem_reverse]
  exact key _ (List.mem_reverse.2 (key s h))

theorem verb_letters {s : Str} (h : isValid up s = true) : ∀ c ∈ s, c.isAlpha = true := by
  intro c hc
  have h1 := of_decide_eq_true h
  have h2 : ∀ v ∈ validMethods, ∀ d ∈ v, d.isUpper = true := by decide
  have h3 : c.toUpper ∈ up s := List.mem_map.2 ⟨c, hc, rfl⟩
  have h4 := h2 _ h1 _ h3
  unfold Char.isAlpha
  unfold Char.toUpper at h4
  split at h4
  · next hl =>
    simp only [Bool.or_eq_true]; right
    simp only [Char.isLower, Bool.and_eq_true, decide_eq_true_eq]
    exact hl
  · simp [h4]

theorem noVerb {s : Str} (h : NoVerb s) : isValid up (quoteTrim s) = false := by
  obtain ⟨c, hc, h1, h2, h3⟩ := h
  cases hv : isValid up (quoteTrim s) with
  | false => rfl
  | true =>
    have := verb_letters hv c (mem_trim (by simp [MethodsModel.isQuote, h1, h2]) hc)
    rw [h3] at this; cases this

theorem argVerb_plain {a : Arg} (h : Plain a) : argVerb up a = none := by
  unfold argVerb
  rcases h with h | ⟨h1, h2⟩
  · rw [if_pos h]
  · rw [noVerb h1, noVerb h2]; simp

theorem valid_iff (v : Str) : v ∈ validMethods ↔ v ∈ HttpVerbs.map String.toList := by
  show v ∈ ["GET".toList, "POST".toList, "PUT".toList, "DELETE".toList, "PATCH".toList, "OPTIONS".toList, "HEAD".toList, "TRACE".toList, "CONNECT".toList] ↔
    v ∈ ["GET".toList, "HEAD".toList, "POST".toList, "PUT".toList, "PATCH".toList, "DELETE".toList, "CONNECT".toList, "OPTIONS".toList, "TRACE".toList]
  simp only [List.mem_cons, List.not_mem_nil, or_false]
  grind

theorem spelled_chars {s v : Str} (h : Spelled s v) : ∀ c ∈ s, c.isAlpha = true :=
  verb_letters (decide_eq_true ((valid_iff _).2 (by show up s ∈ _; rw [show up s = v from h.2]; exact h.1)))

theorem quote_alpha {c : Char} (h : c.isAlpha = true) : MethodsModel.isQuote c = false := by
  cases hq : MethodsModel.isQuote c with
  | false => rfl
  | true =>
    simp only [MethodsModel.isQuote, Bool.or_eq_true, beq_iff_eq] at hq
    rcases hq with e | e <;> (subst e; exact absurd h (by decide))

theorem argVerb_const {a : Arg} {s v : Str} (hc : Const a s) (h : Spelled s v) : argVerb up a = some v := by
  have hne : s ≠ [] := by
    rintro rfl
    have := h.2
    rw [← this] at h
    exact absurd h.1 (by decide)
  have ht : quoteTrim a.value = s := by
    rw [hc]
    exact MethodsModel.trimBy_pad (a := ['"']) (b := ['"']) (by decide) (by decide)
      (fun c hc => quote_alpha (spelled_chars h c (List.mem_of_mem_head? hc)))
      (fun c hc => quote_alpha (spelled_chars h c (List.mem_of_getLast? hc))) hne
  have hval : isValid up s = true := decide_eq_true ((valid_iff _).2 (by show up s ∈ _; rw [show up s = v from h.2]; exact h.1))
  unfold argVerb
  rw [if_neg (by rw [hc]; simp), ht, if_pos hval]
  rw [show up s = v from h.2]

/-! ## C98: routers with one method per verb -/

/-- The names of such methods: `GET` or `Get`. -/
def Registrars : List (String × String) :=
  [("GET", "GET"), ("Get", "GET"), ("POST", "POST"), ("Post", "POST"), ("PUT", "PUT"), ("Put", "PUT"), ("DELETE", "DELETE"), ("Delete", "DELETE"),
   ("PATCH", "PATCH"), ("Patch", "PATCH"), ("OPTIONS", "OPTIONS"), ("Options", "OPTIONS"), ("HEAD", "HEAD"), ("Head", "HEAD")]

theorem registrar_verb {n v : String} (h : (n, v) ∈ Registrars) (p : RPat) (hp : p.extraction = none) :
    (nameVerb ascii p n.toList).1 = v.toList := by
  have hall : Registrars.all (fun x => decide ((methodFromName ascii defaultExtraction x.1.toList).1 = x.2.toList)) = true := by decide
  have := of_decide_eq_true (List.all_eq_true.1 hall (n, v) h)
  unfold nameVerb
  rw [hp]
  exact this

/-- What is documented for a fresh route. -/
structure Says (r : Info) (verb path handler : Str) : Prop where
  method : r.method = verb
  single : r.extra = []
  explicit : r.explicit = true
  path : r.path = shown path
  function : r.function = handler

theorem verb_call {n v : String} (h : (n, v) ∈ Registrars) (c : Call) (hn : c.name = n.toList) (a b : Arg) (more : List Arg) (hargs : c.args = a :: b :: more) :
    Says (extractRoute ascii up verbPat c {}).1 v.toList a.path b.hInfo := by
  have hv := registrar_verb h verbPat rfl
  constructor <;>
    simp [extractRoute, details, begin_, verbStage, pathStage, handlerStage, traceStage, verbPat, hargs, pathAndVerb, hn, shown]
  simpa [verbPat] using hv

/-- **C98, gin, echo and fiber.**  A call of a router method named after a verb, with path and handler,
documents this verb, this path and this handler.  In echo middleware may follow. -/
theorem C98_verb_methods_partial {n v : String} (h : (n, v) ∈ Registrars) (c : Call) (hn : c.name = n.toList) (a b : Arg) (more : List Arg) :
    (On c.forms ["github.com/gin-gonic/gin.*Engine", "github.com/gin-gonic/gin.*RouterGroup"] → c.args = [a, b] →
      Says (execute ascii up ginPats c {}) v.toList a.path b.hInfo) ∧
    (On c.forms (receivers (majors "github.com/labstack/echo") ["*"] ["Echo", "Group"]) → c.args = a :: b :: more →
      Says (execute ascii up echoPats c {}) v.toList a.path b.hInfo) ∧
    (On c.forms (receivers (majors "github.com/gofiber/fiber") ["", "*"] ["App", "Router", "Group"]) → c.args = [a, b] →
      Says (execute ascii up fiberPats c {}) v.toList a.path b.hInfo) := by
  have hverb : rxMatch "^(?i)(GET|POST|PUT|DELETE|PATCH|OPTIONS|HEAD)$" c.name = true := by
    rw [hn]
    have hall : Registrars.all (fun x => rxMatch "^(?i)(GET|POST|PUT|DELETE|PATCH|OPTIONS|HEAD)$" x.1.toList) = true := by decide +kernel
    exact List.all_eq_true.1 hall (n, v) h
  refine ⟨?_, ?_, ?_⟩
  · intro ho hargs
    rw [show ginPats = [] ++ ((Preset.ginRoutes.head (by decide)), verbPat) :: [] from rfl,
      execute_one {} (by simp) (by simp)
        ((patOk_iff (p := Preset.ginRoutes.head (by decide)) (N := True) (by decide) (iff_true_intro hverb) (by decide) (by decide +kernel) (by decide +kernel)).2 ⟨trivial, ho⟩)]
    exact verb_call h c hn a b [] hargs
  · intro ho hargs
    rw [show echoPats = [] ++ ((Preset.echoRoutes.head (by decide)), verbPat) :: [] from rfl,
      execute_one {} (by simp) (by simp)
        ((patOk_iff (p := Preset.echoRoutes.head (by decide)) (N := True) (by decide) (iff_true_intro hverb) (by decide) (by decide +kernel) (by decide +kernel)).2 ⟨trivial, ho⟩)]
    exact verb_call h c hn a b more hargs
  · intro ho hargs
    rw [show fiberPats = [] ++ ((Preset.fiberRoutes.head (by decide)), verbPat) :: [] from rfl,
      execute_one {} (by simp) (by simp)
        ((patOk_iff (p := Preset.fiberRoutes.head (by decide)) (N := True) (by decide) (iff_true_intro hverb) (by decide) (by decide +kernel) (by decide +kernel)).2 ⟨trivial, ho⟩)]
    exact verb_call h c hn a b [] hargs

example : Says (execute ascii up ginPats ⟨"GET".toList, "github.com/gin-gonic/gin".toList, "main.go:3".toList,
    [{ path := "/users".toList }, { hInfo := "app.list".toList, hPkg := "app".toList }], ["github.com/gin-gonic/gin.*Engine".toList]⟩ {}) "GET".toList "/users".toList "app.list".toList :=
  ((C98_verb_methods_partial (n := "GET") (v := "GET") (by decide) _ rfl { path := "/users".toList } { hInfo := "app.list".toList, hPkg := "app".toList } []).1 ⟨"github.com/gin-gonic/gin.*Engine".toList, List.mem_cons_self .., by decide⟩ rfl)

/-- **C98 fails in gin and fiber** when middleware is given with the route: `r.GET("/users", auth, list)`
documents the middleware `auth` as the handler. -/
theorem C98_middleware_documented (a mw h : Arg) (pos : Str) :
    (execute ascii up ginPats ⟨"GET".toList, "github.com/gin-gonic/gin".toList, pos, [a, mw, h], ["github.com/gin-gonic/gin.*Engine".toList]⟩ {}).function = mw.hInfo ∧
    (execute ascii up fiberPats ⟨"Get".toList, "github.com/gofiber/fiber/v2".toList, pos, [a, mw, h], ["github.com/gofiber/fiber/v2.*App".toList]⟩ {}).function = mw.hInfo := by
  constructor
  · rw [show ginPats = [] ++ ((Preset.ginRoutes.head (by decide)), verbPat) :: [] from rfl,
      execute_one {} (by simp) (by simp) (show patOk "GET".toList ["github.com/gin-gonic/gin.*Engine".toList] (Preset.ginRoutes.head (by decide)) = true by decide +kernel)]
    exact (verb_call (n := "GET") (v := "GET") (by decide) _ rfl a mw [h] rfl).function
  · rw [show fiberPats = [] ++ ((Preset.fiberRoutes.head (by decide)), verbPat) :: [] from rfl,
      execute_one {} (by simp) (by simp) (show patOk "Get".toList ["github.com/gofiber/fiber/v2.*App".toList] (Preset.fiberRoutes.head (by decide)) = true by decide +kernel)]
    exact (verb_call (n := "Get") (v := "GET") (by decide) _ rfl a mw [h] rfl).function

/-! ## C98: chi -/

/-- A receiver of chi. -/
def ChiRecv (forms : List Str) : Prop := On forms (receivers (majors "github.com/go-chi/chi") ["", "*"] ["Router", "Mux"])

theorem chi_recvOk {forms : List Str} (h : ChiRecv forms) (p : CallPat) (hp : p.recvRegex = "^github.com/go-chi/chi(/v\\d)?\\.\\*?(Router|Mux)$") :
    Preset.recvOk forms p = true := by
  obtain ⟨f, hf, hm⟩ := h
  have hall : ((receivers (majors "github.com/go-chi/chi") ["", "*"] ["Router", "Mux"]).map String.toList).all
      (fun f => rxMatch "^github.com/go-chi/chi(/v\\d)?\\.\\*?(Router|Mux)$" f) = true := by decide +kernel
  have := List.all_eq_true.1 hall f hm
  have hne : forms ≠ [] := by rintro rfl; cases hf
  unfold Preset.recvOk
  rw [hp, if_neg (by simp)]
  simp only [hne, if_false]
  rw [if_pos (by decide)]
  exact List.any_eq_true.2 ⟨f, hf, this⟩

theorem chi_patOk {name : Str} {forms : List Str} (h : ChiRecv forms) (p : CallPat) (hp : p.recvRegex = "^github.com/go-chi/chi(/v\\d)?\\.\\*?(Router|Mux)$")
    (hn : rxMatch p.call name = true) : patOk name forms p = true := by
  unfold patOk
  rw [chi_recvOk h p hp, hn]; simp

/-- The three patterns of chi. -/
abbrev chi0 : CallPat × RPat := chiPats.head (by decide)
abbrev chi1 : CallPat × RPat := chiPats.tail.head (by decide)
abbrev chi2 : CallPat × RPat := chiPats.tail.tail.head (by decide)
theorem chi_split : chiPats = [chi0, chi1, chi2] := rfl

/-- **C98, chi's verb methods.**  `r.Get(path, handler)` and so on. -/
theorem C98_chi_verbs {n v : String} (h : (n, v) ∈ Registrars) (c : Call) (hn : c.name = n.toList) (hr : ChiRecv c.forms) (a b : Arg) (hargs : c.args = [a, b]) :
    Says (execute ascii up chiPats c {}) v.toList a.path b.hInfo := by
  have hverb : rxMatch chi0.1.call c.name = true := by
    rw [hn]
    have hall : Registrars.all (fun x => rxMatch chi0.1.call x.1.toList) = true := by decide +kernel
    exact List.all_eq_true.1 hall (n, v) h
  have hothers : [chi1, chi2].all (fun x => decide (x.1.call ≠ "") && !rxMatch x.1.call c.name) = true := by
    rw [hn]
    have hall : Registrars.all (fun y => [chi1, chi2].all (fun x => decide (x.1.call ≠ "") && !rxMatch x.1.call y.1.toList)) = true := by decide +kernel
    exact List.all_eq_true.1 hall (n, v) h
  rw [show chiPats = [] ++ (chi0.1, chi0.2) :: [chi1, chi2] from rfl,
    execute_one {} (by simp) (skip_names hothers) (chi_patOk hr _ rfl hverb)]
  exact verb_call h c hn a b [] hargs

/-- **C98, chi's `Method` and `MethodFunc`.**  A verb given as a constant, in any capitalisation, is
documented, with the path and the handler after it. -/
theorem C98_chi_method_partial (c : Call) (hn : c.name = "Method".toList ∨ c.name = "MethodFunc".toList) (hr : ChiRecv c.forms) (m a b : Arg) (hargs : c.args = [m, a, b])
    {s v : Str} (hm : Const m s) (hs : Spelled s v) :
    Says (execute ascii up chiPats c {}) v a.path b.hInfo := by
  have h0 : [chi0].all (fun x => decide (x.1.call ≠ "") && !rxMatch x.1.call c.name) = true := by
    rcases hn with e | e <;> rw [e] <;> decide +kernel
  have h1 : rxMatch chi1.1.call c.name = true := by rcases hn with e | e <;> rw [e] <;> decide +kernel
  have h2 : [chi2].all (fun x => decide (x.1.call ≠ "") && !rxMatch x.1.call c.name) = true := by
    rcases hn with e | e <;> rw [e] <;> decide +kernel
  rw [show chiPats = [chi0] ++ (chi1.1, chi1.2) :: [chi2] from rfl,
    execute_one {} (skip_names h0) (skip_names h2) (chi_patOk hr _ rfl h1)]
  have hv := argVerb_const hm hs
  constructor <;>
    simp [extractRoute, details, begin_, verbStage, pathStage, handlerStage, traceStage, chi1, chiPats, Preset.chiRoutes, hargs, pathAndVerb, shown, hv]

example : ∃ s, Spelled s "GET".toList ∧ s = "get".toList := ⟨_, by unfold Spelled; decide, rfl⟩

/-- **C98 fails for a verb that is not constant** (a variable, a parameter): the route is documented as
`POST`, and a handler that serves several verbs is then split as if nothing were known. -/
theorem C98_chi_variable_verb (c : Call) (hn : c.name = "Method".toList) (hr : ChiRecv c.forms) (m a b : Arg) (hargs : c.args = [m, a, b]) (hm : Plain m) :
    (execute ascii up chiPats c {}).method = "POST".toList ∧ (execute ascii up chiPats c {}).explicit = false := by
  have h0 : [chi0].all (fun x => decide (x.1.call ≠ "") && !rxMatch x.1.call c.name) = true := by rw [hn]; decide +kernel
  have h1 : rxMatch chi1.1.call c.name = true := by rw [hn]; decide +kernel
  have h2 : [chi2].all (fun x => decide (x.1.call ≠ "") && !rxMatch x.1.call c.name) = true := by rw [hn]; decide +kernel
  rw [show chiPats = [chi0] ++ (chi1.1, chi1.2) :: [chi2] from rfl,
    execute_one {} (skip_names h0) (skip_names h2) (chi_patOk hr _ rfl h1)]
  have hv := argVerb_plain hm
  constructor <;>
    simp [extractRoute, details, begin_, verbStage, pathStage, handlerStage, traceStage, chi1, chiPats, Preset.chiRoutes, hargs, pathAndVerb, hv]

/-- **C98 fails for a verb given as a raw string**: ``r.Method(`GET`, …)`` is documented as `POST`. -/
theorem C98_raw_verb (a b : Arg) (pos : Str) :
    (execute ascii up chiPats ⟨"Method".toList, "github.com/go-chi/chi/v5".toList, pos, [{ value := "`GET`".toList, info := "`GET`".toList }, a, b], ["github.com/go-chi/chi/v5.*Mux".toList]⟩ {}).method
      = "POST".toList :=
  (C98_chi_variable_verb _ rfl ⟨_, List.mem_cons_self .., by decide +kernel⟩ _ a b rfl (.inr ⟨⟨'`', by decide⟩, ⟨'`', by decide⟩⟩)).1

/-- **C98 fails for chi's `Handle`**, which serves every verb: the verb is guessed from the name of the
handler, and taken for certain. -/
theorem C98_handle_guessed (a b : Arg) (pos : Str) :
    let r := execute ascii up chiPats ⟨"HandleFunc".toList, "github.com/go-chi/chi/v5".toList, pos, [a, { b with info := "app.removeUser".toList }], ["github.com/go-chi/chi/v5.*Mux".toList]⟩ {}
    r.method = "DELETE".toList ∧ r.explicit = true := by
  have h0 : [chi0, chi1].all (fun x => decide (x.1.call ≠ "") && !rxMatch x.1.call "HandleFunc".toList) = true := by decide +kernel
  have h2 : rxMatch chi2.1.call "HandleFunc".toList = true := by decide +kernel
  intro r
  have hr : r = _ := execute_one (u := ascii) (f := up) (c := ⟨"HandleFunc".toList, "github.com/go-chi/chi/v5".toList, pos, [a, { b with info := "app.removeUser".toList }], ["github.com/go-chi/chi/v5.*Mux".toList]⟩)
    (a := [chi0, chi1]) (b := []) (t := chi2.1) (p := chi2.2) {} (skip_names h0) (by simp) (chi_patOk ⟨_, List.mem_cons_self .., by decide +kernel⟩ _ rfl h2)
  have hg : methodFromName ascii defaultExtraction "app.removeUser".toList = ("DELETE".toList, true) := by decide
  rw [hr]
  constructor <;>
    simp [extractRoute, details, begin_, verbStage, pathStage, handlerStage, traceStage, chi2, chiPats, Preset.chiRoutes, pathAndVerb, nameVerb]
  · exact congrArg Prod.fst hg
  · exact congrArg Prod.snd hg

/-! ## C98: gorilla/mux -/

/-- The calls of a registration with gorilla/mux. -/
inductive MuxCall
  | handleFunc (path h : Arg)
  | handle (path h : Arg)
  | handlerFunc (h : Arg)
  | handler (h : Arg)
  | path (a : Arg)
  | methods (v : Arg) (more : List Arg)

def MuxCall.name : MuxCall → Str
  | .handleFunc .. => "HandleFunc".toList
  | .handle .. => "Handle".toList
  | .handlerFunc .. => "HandlerFunc".toList
  | .handler .. => "Handler".toList
  | .path .. => "Path".toList
  | .methods .. => "Methods".toList

def MuxCall.args : MuxCall → List Arg
  | .handleFunc p h => [p, h]
  | .handle p h => [p, h]
  | .handlerFunc h => [h]
  | .handler h => [h]
  | .path a => [a]
  | .methods v more => v :: more

/-- The path a call gives, and the handler. -/
def MuxCall.path? : MuxCall → Option Arg
  | .handleFunc p _ => some p
  | .handle p _ => some p
  | .path a => some a
  | _ => none
def MuxCall.handler? : MuxCall → Option Arg
  | .handleFunc _ h => some h
  | .handle _ h => some h
  | .handlerFunc h => some h
  | .handler h => some h
  | _ => none

/-- `Methods` with the verb `v` first. -/
inductive MuxCall.Verb : MuxCall → Str → Prop
  | mk {a : Arg} {more : List Arg} {s v : Str} (hc : Const a s) (hs : Spelled s v) : MuxCall.Verb (.methods a more) v

/-- A call as it is recorded: of a router or route of the framework, at a position, its path and its handler
no verbs, its handler in a package. -/
structure Recorded (m : MuxCall) (c : Call) : Prop where
  name : c.name = m.name
  args : c.args = m.args
  pos : c.pos ≠ []
  pkg : c.pkg ≠ []
  recv : match m with
    | .handleFunc .. | .handle .. => On c.forms muxRouter
    | .handlerFunc .. | .handler .. => On c.forms muxRoute
    | _ => On c.forms (muxRouter ++ muxRoute)
  paths : ∀ a, m.path? = some a → Plain a
  handlers : ∀ a, m.handler? = some a → Plain a ∧ a.hPkg ≠ []
  verb : ∀ a more, m = .methods a more → ∃ s v, Const a s ∧ Spelled s v

/-- The six patterns of mux. -/
abbrev mux0 : CallPat × RPat := muxPats.head (by decide)
abbrev mux1 : CallPat × RPat := muxPats.tail.head (by decide)
abbrev mux2 : CallPat × RPat := muxPats.tail.tail.head (by decide)
abbrev mux3 : CallPat × RPat := muxPats.tail.tail.tail.head (by decide)
abbrev mux4 : CallPat × RPat := muxPats.tail.tail.tail.tail.head (by decide)
abbrev mux5 : CallPat × RPat := muxPats.tail.tail.tail.tail.tail.head (by decide)

theorem on_both {forms : List Str} (h : On forms (muxRouter ++ muxRoute)) :
    On forms ["github.com/gorilla/mux.Router", "github.com/gorilla/mux.Route", "github.com/gorilla/mux.*Router", "github.com/gorilla/mux.*Route"] := by
  obtain ⟨f, hf, hm⟩ := h
  refine ⟨f, hf, ?_⟩
  simp only [muxRouter, muxRoute, List.map_cons, List.map_nil, List.mem_cons, List.not_mem_nil, or_false, List.cons_append, List.nil_append] at hm ⊢
  grind

/-- What one call does to a route that was begun. -/
structure Step (m : MuxCall) (r r' : Info) : Prop where
  file : r'.file = r.file
  pkg : r.pkg ≠ [] → r'.pkg ≠ []
  extra : r'.extra = r.extra
  path : r'.path = (m.path?.map fun a => shown a.path).getD r.path
  function : r'.function = (m.handler?.map fun a => a.hInfo).getD r.function
  verb : ∀ v, m.Verb v → r'.method = v ∧ r'.explicit = true
  noVerb : (∀ v, ¬ m.Verb v) → r'.method = r.method ∧ r'.explicit = r.explicit

theorem no_methods {m : MuxCall} {v : Str} (h : m.Verb v) : ∃ a more, m = .methods a more := by
  cases h with | mk => exact ⟨_, _, rfl⟩

theorem begin_of {c : Call} {r : Info} (h1 : r.file ≠ []) (h2 : r.pkg ≠ []) : begin_ c r = r := by
  unfold begin_
  rw [if_neg]
  rintro (h | h)
  · exact h1 h
  · exact h2 h

theorem begin_idem {c : Call} (hp : c.pos ≠ []) (hk : c.pkg ≠ []) (r : Info) : begin_ c (begin_ c r) = begin_ c r := by
  unfold begin_
  by_cases h : r.file = [] ∨ r.pkg = []
  · rw [if_pos h, if_neg]
    rintro (h | h)
    · exact hp h
    · exact hk h
  · rw [if_neg h, if_neg h]

theorem extract_begin {c : Call} (hp : c.pos ≠ []) (hk : c.pkg ≠ []) (p : RPat) (r : Info) :
    extractRoute ascii up p c r = extractRoute ascii up p c (begin_ c r) := by
  unfold extractRoute
  rw [begin_idem hp hk]

theorem origin_pkg {a : Str} {b : Str} (h : b ≠ []) : (if a = [] then b else a) ≠ [] := by
  split
  · exact h
  · assumption

theorem mux_step {m : MuxCall} {c : Call} (h : Recorded m c) (r : Info) (h1 : r.file ≠ []) (h2 : r.pkg ≠ []) :
    Step m r (execute ascii up muxPats c r) := by
  obtain ⟨hn, ha, hpos, hpkg, hr, hpa, hha, hve⟩ := h
  cases m with
  | handleFunc p q =>
    have hn : c.name = "HandleFunc".toList := hn
    have h0 : rxMatch mux0.1.call c.name = true := by rw [hn]; decide +kernel
    have hs : [mux1, mux2, mux3, mux4, mux5].all (fun x => decide (x.1.call ≠ "") && !rxMatch x.1.call c.name) = true := by rw [hn]; decide +kernel
    rw [show muxPats = [] ++ (mux0.1, mux0.2) :: [mux1, mux2, mux3, mux4, mux5] from rfl,
      execute_one r (by simp) (skip_names hs) ((patOk_iff (N := True) (by decide) (iff_true_intro h0) (by decide) (by decide +kernel) (by decide)).2 ⟨trivial, hr⟩)]
    have hv := argVerb_plain (hpa p rfl)
    have hk := (hha q rfl).2
    constructor
    case verb => intro v hv; obtain ⟨_, _, e⟩ := no_methods hv; cases e
    all_goals simp [extractRoute, details, begin_of h1 h2, verbStage, pathStage, handlerStage, traceStage, mux0, muxPats, Preset.muxRoutes, ha, MuxCall.args, pathAndVerb, shown, hv, MuxCall.path?, MuxCall.handler?]
    case pkg => intro _; exact origin_pkg hk
  | handle p q =>
    have hn : c.name = "Handle".toList := hn
    have h0 : rxMatch mux1.1.call c.name = true := by rw [hn]; decide +kernel
    have hs : [mux2, mux3, mux4, mux5].all (fun x => decide (x.1.call ≠ "") && !rxMatch x.1.call c.name) = true := by rw [hn]; decide +kernel
    have hb : [mux0].all (fun x => decide (x.1.call ≠ "") && !rxMatch x.1.call c.name) = true := by rw [hn]; decide +kernel
    rw [show muxPats = [mux0] ++ (mux1.1, mux1.2) :: [mux2, mux3, mux4, mux5] from rfl,
      execute_one r (skip_names hb) (skip_names hs) ((patOk_iff (N := True) (by decide) (iff_true_intro h0) (by decide) (by decide +kernel) (by decide)).2 ⟨trivial, hr⟩)]
    have hv := argVerb_plain (hpa p rfl)
    have hk := (hha q rfl).2
    constructor
    case verb => intro v hv; obtain ⟨_, _, e⟩ := no_methods hv; cases e
    all_goals simp [extractRoute, details, begin_of h1 h2, verbStage, pathStage, handlerStage, traceStage, mux1, muxPats, Preset.muxRoutes, ha, MuxCall.args, pathAndVerb, shown, hv, MuxCall.path?, MuxCall.handler?]
    case pkg => intro _; exact origin_pkg hk
  | handlerFunc q =>
    have hn : c.name = "HandlerFunc".toList := hn
    have h0 : rxMatch mux2.1.call c.name = true := by rw [hn]; decide +kernel
    have hs : [mux3, mux4, mux5].all (fun x => decide (x.1.call ≠ "") && !rxMatch x.1.call c.name) = true := by rw [hn]; decide +kernel
    have hb : [mux0, mux1].all (fun x => decide (x.1.call ≠ "") && !rxMatch x.1.call c.name) = true := by rw [hn]; decide +kernel
    rw [show muxPats = [mux0, mux1] ++ (mux2.1, mux2.2) :: [mux3, mux4, mux5] from rfl,
      execute_one r (skip_names hb) (skip_names hs) ((patOk_iff (N := True) (by decide) (iff_true_intro h0) (by decide) (by decide +kernel) (by decide)).2 ⟨trivial, hr⟩)]
    have hv := argVerb_plain (hha q rfl).1
    have hk := (hha q rfl).2
    constructor
    case verb => intro v hv; obtain ⟨_, _, e⟩ := no_methods hv; cases e
    all_goals simp [extractRoute, details, begin_of h1 h2, verbStage, pathStage, handlerStage, traceStage, mux2, muxPats, Preset.muxRoutes, ha, MuxCall.args, hv, MuxCall.path?, MuxCall.handler?]
    case pkg => intro _; exact origin_pkg hk
  | handler q =>
    have hn : c.name = "Handler".toList := hn
    have h0 : rxMatch mux3.1.call c.name = true := by rw [hn]; decide +kernel
    have hs : [mux4, mux5].all (fun x => decide (x.1.call ≠ "") && !rxMatch x.1.call c.name) = true := by rw [hn]; decide +kernel
    have hb : [mux0, mux1, mux2].all (fun x => decide (x.1.call ≠ "") && !rxMatch x.1.call c.name) = true := by rw [hn]; decide +kernel
    rw [show muxPats = [mux0, mux1, mux2] ++ (mux3.1, mux3.2) :: [mux4, mux5] from rfl,
      execute_one r (skip_names hb) (skip_names hs) ((patOk_iff (N := True) (by decide) (iff_true_intro h0) (by decide) (by decide +kernel) (by decide)).2 ⟨trivial, hr⟩)]
    have hv := argVerb_plain (hha q rfl).1
    have hk := (hha q rfl).2
    constructor
    case verb => intro v hv; obtain ⟨_, _, e⟩ := no_methods hv; cases e
    all_goals simp [extractRoute, details, begin_of h1 h2, verbStage, pathStage, handlerStage, traceStage, mux3, muxPats, Preset.muxRoutes, ha, MuxCall.args, hv, MuxCall.path?, MuxCall.handler?]
    case pkg => intro _; exact origin_pkg hk
  | path q =>
    have hn : c.name = "Path".toList := hn
    have h0 : rxMatch mux4.1.call c.name = true := by rw [hn]; decide +kernel
    have hs : [mux5].all (fun x => decide (x.1.call ≠ "") && !rxMatch x.1.call c.name) = true := by rw [hn]; decide +kernel
    have hb : [mux0, mux1, mux2, mux3].all (fun x => decide (x.1.call ≠ "") && !rxMatch x.1.call c.name) = true := by rw [hn]; decide +kernel
    rw [show muxPats = [mux0, mux1, mux2, mux3] ++ (mux4.1, mux4.2) :: [mux5] from rfl,
      execute_one r (skip_names hb) (skip_names hs) ((patOk_iff (N := True) (by decide) (iff_true_intro h0) (by decide) (by decide +kernel) (by decide)).2 ⟨trivial, on_both hr⟩)]
    have hv := argVerb_plain (hpa q rfl)
    constructor
    case verb => intro v hv; obtain ⟨_, _, e⟩ := no_methods hv; cases e
    all_goals simp [extractRoute, details, begin_of h1 h2, verbStage, pathStage, handlerStage, traceStage, mux4, muxPats, Preset.muxRoutes, ha, MuxCall.args, pathAndVerb, shown, hv, MuxCall.path?, MuxCall.handler?]
  | methods a more =>
    have hn : c.name = "Methods".toList := hn
    have h0 : rxMatch mux5.1.call c.name = true := by rw [hn]; decide +kernel
    have hb : [mux0, mux1, mux2, mux3, mux4].all (fun x => decide (x.1.call ≠ "") && !rxMatch x.1.call c.name) = true := by rw [hn]; decide +kernel
    rw [show muxPats = [mux0, mux1, mux2, mux3, mux4] ++ (mux5.1, mux5.2) :: [] from rfl,
      execute_one r (skip_names hb) (by simp) ((patOk_iff (N := True) (by decide) (iff_true_intro h0) (by decide) (by decide +kernel) (by decide)).2 ⟨trivial, on_both hr⟩)]
    obtain ⟨s, v, hc, hs⟩ := hve a more rfl
    have hv := argVerb_const hc hs
    constructor
    case verb =>
      intro w hw
      cases hw with
      | mk hc' hs' =>
        have hw := argVerb_const hc' hs'
        simp [extractRoute, details, begin_of h1 h2, verbStage, pathStage, handlerStage, traceStage, mux5, muxPats, Preset.muxRoutes, ha, MuxCall.args, hw]
    case noVerb => intro hno; exact absurd (.mk hc hs) (hno v)
    all_goals simp [extractRoute, details, begin_of h1 h2, verbStage, pathStage, handlerStage, traceStage, mux5, muxPats, Preset.muxRoutes, ha, MuxCall.args, hv, MuxCall.path?, MuxCall.handler?]

/-- The route after further calls. -/
def after (r : Info) (cs : List (MuxCall × Call)) : Info := cs.foldl (fun r x => execute ascii up muxPats x.2 r) r

theorem after_begun : ∀ (cs : List (MuxCall × Call)) (r : Info), (∀ x ∈ cs, Recorded x.1 x.2) → r.file ≠ [] → r.pkg ≠ [] →
    (after r cs).file ≠ [] ∧ (after r cs).pkg ≠ [] ∧ (after r cs).extra = r.extra ∧
    ((∀ x ∈ cs, x.1.path? = none) → (after r cs).path = r.path) ∧
    ((∀ x ∈ cs, x.1.handler? = none) → (after r cs).function = r.function) ∧
    ((∀ x ∈ cs, ∀ v, ¬ x.1.Verb v) → (after r cs).method = r.method ∧ (after r cs).explicit = r.explicit)
  | [], r, _, h1, h2 => ⟨h1, h2, rfl, fun _ => rfl, fun _ => rfl, fun _ => ⟨rfl, rfl⟩⟩
  | x :: cs, r, h, h1, h2 => by
    have st := mux_step (h x (List.mem_cons_self ..)) r h1 h2
    have hf : (execute ascii up muxPats x.2 r).file ≠ [] := by rw [st.file]; exact h1
    obtain ⟨i1, i2, i3, i4, i5, i6⟩ := after_begun cs (execute ascii up muxPats x.2 r) (fun y hy => h y (List.mem_cons_of_mem _ hy)) hf (st.pkg h2)
    refine ⟨i1, i2, i3.trans st.extra, ?_, ?_, ?_⟩
    · intro hp
      refine (i4 fun y hy => hp y (List.mem_cons_of_mem _ hy)).trans ?_
      rw [st.path, hp x (List.mem_cons_self ..)]; rfl
    · intro hp
      refine (i5 fun y hy => hp y (List.mem_cons_of_mem _ hy)).trans ?_
      rw [st.function, hp x (List.mem_cons_self ..)]; rfl
    · intro hp
      have j := i6 fun y hy => hp y (List.mem_cons_of_mem _ hy)
      have k := st.noVerb (hp x (List.mem_cons_self ..))
      exact ⟨j.1.trans k.1, j.2.trans k.2⟩

/-- A fresh route and one begun by the call go the same way. -/
theorem execute_fresh {m : MuxCall} {c : Call} (h : Recorded m c) :
    execute ascii up muxPats c {} = execute ascii up muxPats c { method := "POST".toList, pkg := c.pkg, file := c.pos } := by
  have key : ∀ (ps : List (CallPat × RPat)) (best : Nat) (r r' : Info), (∀ p, extractRoute ascii up p c r = extractRoute ascii up p c r') →
      (∃ x ∈ ps, patOk c.name c.forms x.1 = true) →
      executeGo ascii up c ps (r, false, best) = executeGo ascii up c ps (r', false, best) := by
    intro ps
    induction ps with
    | nil => rintro best r r' _ ⟨x, hx, _⟩; cases hx
    | cons y ps ih =>
      obtain ⟨t, p⟩ := y
      intro best r r' hr hx
      rw [executeGo, executeGo]
      by_cases ht : patOk c.name c.forms t = false
      · rw [if_pos ht, if_pos ht]
        apply ih _ _ _ hr
        obtain ⟨x, hx, ho⟩ := hx
        rcases List.mem_cons.1 hx with e | hx
        · rw [e] at ho; rw [ht] at ho; cases ho
        · exact ⟨x, hx, ho⟩
      · rw [if_neg ht, if_neg ht, if_pos (Or.inl rfl), if_pos (Or.inl rfl), hr p]
  unfold execute
  rw [key muxPats 0 {} { method := "POST".toList, pkg := c.pkg, file := c.pos }]
  · intro p
    rw [extract_begin h.pos h.pkg p {}, extract_begin h.pos h.pkg p { method := "POST".toList, pkg := c.pkg, file := c.pos },
      begin_of (r := { method := "POST".toList, pkg := c.pkg, file := c.pos }) h.pos h.pkg]
    rfl
  · have hrec : Preset.recognised Preset.muxRoutes c.name c.forms = true := by
      rw [(Preset.C96_mux c.name c.forms).1, h.name]
      have hr := h.recv
      have both : On c.forms (muxRouter ++ muxRoute) → On c.forms muxRouter ∨ On c.forms muxRoute := by
        rintro ⟨f, hf, hm⟩
        rw [List.map_append, List.mem_append] at hm
        rcases hm with hm | hm
        · exact .inl ⟨f, hf, hm⟩
        · exact .inr ⟨f, hf, hm⟩
      cases m with
      | handleFunc => exact .inl ⟨show "HandleFunc".toList ∈ ["Handle", "HandleFunc", "Path", "Methods"].map String.toList by decide, hr⟩
      | handle => exact .inl ⟨show "Handle".toList ∈ ["Handle", "HandleFunc", "Path", "Methods"].map String.toList by decide, hr⟩
      | handlerFunc => exact .inr ⟨show "HandlerFunc".toList ∈ ["Handler", "HandlerFunc", "Path", "Methods"].map String.toList by decide, hr⟩
      | handler => exact .inr ⟨show "Handler".toList ∈ ["Handler", "HandlerFunc", "Path", "Methods"].map String.toList by decide, hr⟩
      | path =>
        rcases both hr with hr | hr
        · exact .inl ⟨show "Path".toList ∈ ["Handle", "HandleFunc", "Path", "Methods"].map String.toList by decide, hr⟩
        · exact .inr ⟨show "Path".toList ∈ ["Handler", "HandlerFunc", "Path", "Methods"].map String.toList by decide, hr⟩
      | methods =>
        rcases both hr with hr | hr
        · exact .inl ⟨show "Methods".toList ∈ ["Handle", "HandleFunc", "Path", "Methods"].map String.toList by decide, hr⟩
        · exact .inr ⟨show "Methods".toList ∈ ["Handler", "HandlerFunc", "Path", "Methods"].map String.toList by decide, hr⟩
    obtain ⟨t, ht, ho⟩ := List.any_eq_true.1 hrec
    have hmap : muxPats.map Prod.fst = Preset.muxRoutes := rfl
    rw [← hmap] at ht
    obtain ⟨x, hx, rfl⟩ := List.mem_map.1 ht
    exact ⟨x, hx, ho⟩

theorem all_begun (cs : List (MuxCall × Call)) (hne : cs ≠ []) (h : ∀ x ∈ cs, Recorded x.1 x.2) :
    ∃ r : Info, r.file ≠ [] ∧ r.pkg ≠ [] ∧ r.extra = [] ∧ r.method = "POST".toList ∧ r.explicit = false ∧
      executeAll ascii up muxPats (cs.map Prod.snd) = after r cs := by
  cases cs with
  | nil => exact absurd rfl hne
  | cons x cs =>
    have hx := h x (List.mem_cons_self ..)
    refine ⟨{ method := "POST".toList, pkg := x.2.pkg, file := x.2.pos }, hx.pos, hx.pkg, rfl, rfl, rfl, ?_⟩
    unfold executeAll after
    rw [List.foldl_map, List.foldl_cons, List.foldl_cons, execute_fresh hx]

theorem after_split (r : Info) (a : List (MuxCall × Call)) (x : MuxCall × Call) (b : List (MuxCall × Call)) :
    after r (a ++ x :: b) = after (execute ascii up muxPats x.2 (after r a)) b := by
  unfold after
  rw [List.foldl_append, List.foldl_cons]

/-- **C98, gorilla/mux (partial).**  A registration is a chain of calls (`Path`, `Methods`, `Handler`,
`HandleFunc`, …) in any order and of any length.  The path documented is the one of the last call that gives a
path, the handler that of the last call that gives one, the verb that of the last `Methods`; without
`Methods` the verb is left open, as `POST`.  Missing: a second verb of one `Methods`, and handlers without a
package. -/
theorem C98_mux_chain_partial (cs : List (MuxCall × Call)) (h : ∀ x ∈ cs, Recorded x.1 x.2) (r : Info)
    (hr : r = executeAll ascii up muxPats (cs.map Prod.snd)) :
    (∀ a b m c p, cs = a ++ (m, c) :: b → m.path? = some p → (∀ x ∈ b, x.1.path? = none) → r.path = shown p.path) ∧
    (∀ a b m c q, cs = a ++ (m, c) :: b → m.handler? = some q → (∀ x ∈ b, x.1.handler? = none) → r.function = q.hInfo) ∧
    (∀ a b m c v, cs = a ++ (m, c) :: b → m.Verb v → (∀ x ∈ b, ∀ w, ¬ x.1.Verb w) → r.method = v ∧ r.explicit = true) ∧
    (cs ≠ [] → (∀ x ∈ cs, ∀ w, ¬ x.1.Verb w) → r.method = "POST".toList ∧ r.explicit = false) ∧
    r.extra = [] := by
  have main : ∀ a b m c, cs = a ++ (m, c) :: b → ∃ r0, Step m r0 (execute ascii up muxPats c r0) ∧
      (execute ascii up muxPats c r0).file ≠ [] ∧ (execute ascii up muxPats c r0).pkg ≠ [] ∧ (∀ x ∈ b, Recorded x.1 x.2) ∧
      r = after (execute ascii up muxPats c r0) b := by
    intro a b m c e
    have hne : cs ≠ [] := by rw [e]; simp
    obtain ⟨r1, g1, g2, _, _, _, g3⟩ := all_begun cs hne h
    rw [e] at h
    have ha : ∀ x ∈ a, Recorded x.1 x.2 := fun x hx => h x (List.mem_append_left _ hx)
    have hx : Recorded m c := h (m, c) (by simp)
    obtain ⟨j1, j2, _⟩ := after_begun a r1 ha g1 g2
    have st := mux_step hx (after r1 a) j1 j2
    refine ⟨after r1 a, st, ?_, st.pkg j2, fun x hx => h x (List.mem_append_right _ (List.mem_cons_of_mem _ hx)), ?_⟩
    · rw [st.file]; exact j1
    · rw [hr, g3, e, after_split]
  refine ⟨?_, ?_, ?_, ?_, ?_⟩
  · intro a b m c p e hp hb
    obtain ⟨r0, st, f1, f2, hrec, hrr⟩ := main a b m c e
    obtain ⟨_, _, _, k, _, _⟩ := after_begun b _ hrec f1 f2
    rw [hrr, k hb, st.path, hp]; rfl
  · intro a b m c q e hp hb
    obtain ⟨r0, st, f1, f2, hrec, hrr⟩ := main a b m c e
    obtain ⟨_, _, _, _, k, _⟩ := after_begun b _ hrec f1 f2
    rw [hrr, k hb, st.function, hp]; rfl
  · intro a b m c v e hv hb
    obtain ⟨r0, st, f1, f2, hrec, hrr⟩ := main a b m c e
    obtain ⟨_, _, _, _, _, k⟩ := after_begun b _ hrec f1 f2
    rw [hrr, (k hb).1, (k hb).2]
    exact st.verb v hv
  · intro hne hno
    obtain ⟨r1, g1, g2, _, g4, g5, g3⟩ := all_begun cs hne h
    obtain ⟨_, _, _, _, _, k⟩ := after_begun cs r1 h g1 g2
    rw [hr, g3, (k hno).1, (k hno).2]
    exact ⟨g4, g5⟩
  · by_cases hne : cs = []
    · subst hne; rw [hr]; rfl
    · obtain ⟨r1, g1, g2, g4, _, _, g3⟩ := all_begun cs hne h
      obtain ⟨_, _, k, _⟩ := after_begun cs r1 h g1 g2
      rw [hr, g3, k, g4]

/-! `r.HandleFunc("/users", list).Methods("get")` -/
def demoPath : Arg := { value := "\"/users\"".toList, info := "/users".toList, path := "/users".toList }
def demoHandler : Arg := { info := "app.list".toList, hInfo := "app.list".toList, hPkg := "app".toList }
def demoVerb : Arg := { value := "\"get\"".toList, info := "get".toList }
def demoRegister : MuxCall × Call :=
  (.handleFunc demoPath demoHandler, ⟨"HandleFunc".toList, "github.com/gorilla/mux".toList, "main.go:7".toList, [demoPath, demoHandler], ["github.com/gorilla/mux.*Router".toList]⟩)
def demoMethods : MuxCall × Call :=
  (.methods demoVerb [], ⟨"Methods".toList, "github.com/gorilla/mux".toList, "main.go:7".toList, [demoVerb], ["github.com/gorilla/mux.*Route".toList]⟩)

theorem demo_recorded : ∀ x ∈ [demoRegister, demoMethods], Recorded x.1 x.2 := by
  intro x hx
  rcases List.mem_cons.1 hx with e | hx
  · subst e
    refine ⟨rfl, rfl, by decide, by decide, ⟨"github.com/gorilla/mux.*Router".toList, List.mem_cons_self .., by decide⟩, ?_, ?_, ?_⟩
    · intro a ha; cases ha; exact .inr ⟨⟨'/', by decide⟩, ⟨'/', by decide⟩⟩
    · intro a ha; cases ha; exact ⟨.inl rfl, by decide⟩
    · intro a more h; cases h
  · rcases List.mem_cons.1 hx with e | hx
    · subst e
      refine ⟨rfl, rfl, by decide, by decide, ⟨"github.com/gorilla/mux.*Route".toList, List.mem_cons_self .., by decide⟩, ?_, ?_, ?_⟩
      · intro a ha; cases ha
      · intro a ha; cases ha
      · intro a more h; cases h
        exact ⟨"get".toList, "GET".toList, rfl, by unfold Spelled; decide⟩
    · cases hx

example : let r := executeAll ascii up muxPats ([demoRegister, demoMethods].map Prod.snd)
    r.method = "GET".toList ∧ r.path = "/users".toList ∧ r.function = "app.list".toList := by
  intro r
  obtain ⟨h1, h2, h3, _, _⟩ := C98_mux_chain_partial [demoRegister, demoMethods] demo_recorded r rfl
  refine ⟨(h3 [demoRegister] [] demoMethods.1 demoMethods.2 "GET".toList rfl (.mk (s := "get".toList) rfl (by unfold Spelled; decide)) (fun x hx => by cases hx)).1, ?_, ?_⟩
  · refine h1 [] [demoMethods] demoRegister.1 demoRegister.2 demoPath rfl rfl fun x hx => ?_
    rcases List.mem_cons.1 hx with e | hx
    · subst e; rfl
    · cases hx
  · refine h2 [] [demoMethods] demoRegister.1 demoRegister.2 demoHandler rfl rfl fun x hx => ?_
    rcases List.mem_cons.1 hx with e | hx
    · subst e; rfl
    · cases hx

theorem mux_methods (c : Call) (hn : c.name = "Methods".toList) (hr : On c.forms (muxRouter ++ muxRoute)) (r : Info) :
    execute ascii up muxPats c r = (extractRoute ascii up mux5.2 c r).1 := by
  have h0 : rxMatch mux5.1.call c.name = true := by rw [hn]; decide +kernel
  have hb : [mux0, mux1, mux2, mux3, mux4].all (fun x => decide (x.1.call ≠ "") && !rxMatch x.1.call c.name) = true := by rw [hn]; decide +kernel
  rw [show muxPats = [mux0, mux1, mux2, mux3, mux4] ++ (mux5.1, mux5.2) :: [] from rfl,
    execute_one r (skip_names hb) (by simp) ((patOk_iff (N := True) (by decide) (iff_true_intro h0) (by decide) (by decide +kernel) (by decide)).2 ⟨trivial, on_both hr⟩)]

/-- **C98 fails for several verbs.**  Only the first verb of `Methods("GET", "POST")` is read: whatever
further verbs the call names, the route is the same as without them. -/
theorem C98_second_verb_dropped (c : Call) (hn : c.name = "Methods".toList) (hr : On c.forms (muxRouter ++ muxRoute)) (v : Arg) (more : List Arg) (hargs : c.args = v :: more) (r : Info) :
    execute ascii up muxPats c r = execute ascii up muxPats { c with args := [v] } r := by
  rw [mux_methods c hn hr, mux_methods { c with args := [v] } hn hr]
  simp [extractRoute, details, begin_, verbStage, pathStage, handlerStage, traceStage, mux5, muxPats, Preset.muxRoutes, hargs]

/-- **C98 fails for a handler without a package.**  A composite literal (`&Users{}`) as the handler of
`r.Handle("/users", &Users{}).Methods("GET")` has no package; the call of `Methods` then begins the route
afresh, and path and handler are lost. -/
theorem C98_chain_reset (p q v : Arg) (hq : q.hPkg = []) (ho : q.originPkg = []) (hp : Plain p) (pos : Str) :
    let r := executeAll ascii up muxPats
      [⟨"Handle".toList, "github.com/gorilla/mux".toList, pos, [p, q], ["github.com/gorilla/mux.*Router".toList]⟩,
       ⟨"Methods".toList, "github.com/gorilla/mux".toList, pos, [v], ["github.com/gorilla/mux.*Route".toList]⟩]
    r.path = [] ∧ r.handler = [] ∧ r.function = [] := by
  intro r
  have h0 : [mux0].all (fun x => decide (x.1.call ≠ "") && !rxMatch x.1.call "Handle".toList) = true := by decide +kernel
  have h2 : [mux2, mux3, mux4, mux5].all (fun x => decide (x.1.call ≠ "") && !rxMatch x.1.call "Handle".toList) = true := by decide +kernel
  have h1 : execute ascii up muxPats ⟨"Handle".toList, "github.com/gorilla/mux".toList, pos, [p, q], ["github.com/gorilla/mux.*Router".toList]⟩ {} = _ :=
    execute_one (a := [mux0]) (b := [mux2, mux3, mux4, mux5]) (t := mux1.1) (p := mux1.2) {} (skip_names h0) (skip_names h2)
      (show patOk "Handle".toList ["github.com/gorilla/mux.*Router".toList] mux1.1 = true by decide +kernel)
  have hk : (execute ascii up muxPats ⟨"Handle".toList, "github.com/gorilla/mux".toList, pos, [p, q], ["github.com/gorilla/mux.*Router".toList]⟩ {}).pkg = [] := by
    rw [h1]
    simp [extractRoute, details, handlerStage, traceStage, mux1, muxPats, Preset.muxRoutes, hq, ho]
  have hr : r = (extractRoute ascii up mux5.2 ⟨"Methods".toList, "github.com/gorilla/mux".toList, pos, [v], ["github.com/gorilla/mux.*Route".toList]⟩
      (execute ascii up muxPats ⟨"Handle".toList, "github.com/gorilla/mux".toList, pos, [p, q], ["github.com/gorilla/mux.*Router".toList]⟩ {})).1 :=
    mux_methods _ rfl ⟨"github.com/gorilla/mux.*Route".toList, List.mem_cons_self .., by decide⟩ _
  rw [hr]
  generalize execute ascii up muxPats ⟨"Handle".toList, "github.com/gorilla/mux".toList, pos, [p, q], ["github.com/gorilla/mux.*Router".toList]⟩ {} = r0 at hk
  have hb : begin_ ⟨"Methods".toList, "github.com/gorilla/mux".toList, pos, [v], ["github.com/gorilla/mux.*Route".toList]⟩ r0 = { method := "POST".toList, pkg := "github.com/gorilla/mux".toList, file := pos } := by
    unfold begin_
    rw [if_pos (.inr hk)]
  refine ⟨?_, ?_, ?_⟩ <;>
    (simp only [extractRoute, details, hb, verbStage, pathStage, handlerStage, traceStage, mux5, muxPats, Preset.muxRoutes]
     simp
     cases argVerb up v <;> rfl)

/-! ## C98: net/http -/

abbrev http0 : CallPat × RPat := httpPats.head (by decide)
abbrev http1 : CallPat × RPat := httpPats.tail.head (by decide)

theorem http_one (c : Call) (hn : c.name = "HandleFunc".toList ∨ c.name = "Handle".toList) (hr : On c.forms ["net/http", "net/http.*ServeMux"]) (r : Info) :
    execute ascii up httpPats c r = (extractRoute ascii up http0.2 c r).1 := by
  rcases hn with hn | hn
  · have h0 : rxMatch http0.1.call c.name = true := by rw [hn]; decide +kernel
    have hs : [http1].all (fun x => decide (x.1.call ≠ "") && !rxMatch x.1.call c.name) = true := by rw [hn]; decide +kernel
    rw [show httpPats = [] ++ (http0.1, http0.2) :: [http1] from rfl,
      execute_one r (by simp) (skip_names hs) ((patOk_iff (N := True) (by decide) (iff_true_intro h0) (by decide) (by decide +kernel) (by decide)).2 ⟨trivial, hr⟩)]
  · have hs : [http0].all (fun x => decide (x.1.call ≠ "") && !rxMatch x.1.call c.name) = true := by rw [hn]; decide +kernel
    rw [show httpPats = [http0] ++ (http1.1, http1.2) :: [] from rfl,
      execute_one r (skip_names hs) (by simp) ((List.any_eq_true.1 (by
        have := Preset.C96_http_handle_anywhere c.forms
        rw [← hn, Preset.recognised, Preset.httpRoutes, List.any_cons] at this
        rw [show patOk c.name c.forms { call := "^HandleFunc$", recvRegex := "^net/http(\\.\\*ServeMux)?$" } = false from
          skip_names hs http0 (List.mem_cons_self ..), Bool.false_or] at this
        exact this)).elim fun x hx => by
          rcases List.mem_cons.1 hx.1 with e | e
          · rw [e] at hx; exact hx.2
          · cases e)]
    rfl

/-- The path and the verb a ServeMux pattern stands for: the verb is optional. -/
theorem http_says (c : Call) (hn : c.name = "HandleFunc".toList ∨ c.name = "Handle".toList) (hr : On c.forms ["net/http", "net/http.*ServeMux"]) (a b : Arg) (hargs : c.args = [a, b]) :
    let r := execute ascii up httpPats c {}
    let sp := Paths.splitMethodFromPath a.path
    (sp.1 ≠ [] → r.method = sp.1 ∧ r.explicit = true ∧ r.path = shown (Paths.normalizeServeMux sp.2)) ∧
    (sp.1 = [] → r.method = "POST".toList ∧ r.explicit = false ∧ r.path = shown (Paths.normalizeServeMux a.path)) ∧
    r.extra = [] ∧ r.function = b.hInfo := by
  intro r sp
  have hrr : r = _ := http_one c hn hr {}
  refine ⟨?_, ?_, ?_, ?_⟩
  · intro h
    have h' : ¬ (Paths.splitMethodFromPath a.path).1 = [] := h
    rw [hrr]
    simp [extractRoute, details, begin_, verbStage, pathStage, handlerStage, traceStage, http0, httpPats, Preset.httpRoutes, hargs, pathAndVerb, shown, h']
    exact ⟨rfl, rfl⟩
  · intro h
    have h' : (Paths.splitMethodFromPath a.path).1 = [] := h
    rw [hrr]
    simp [extractRoute, details, begin_, verbStage, pathStage, handlerStage, traceStage, http0, httpPats, Preset.httpRoutes, hargs, pathAndVerb, shown, h']
  · rw [hrr]
    simp [extractRoute, details, begin_, verbStage, pathStage, handlerStage, traceStage, http0, httpPats, Preset.httpRoutes, hargs]
  · rw [hrr]
    simp [extractRoute, details, begin_, verbStage, pathStage, handlerStage, traceStage, http0, httpPats, Preset.httpRoutes, hargs]

/-- **C98, net/http.**  `HandleFunc("GET /users/{id}", h)` documents the verb in front of the path, in any
capitalisation, and the path in OpenAPI syntax. -/
theorem C98_http_verb (c : Call) (hn : c.name = "HandleFunc".toList ∨ c.name = "Handle".toList) (hr : On c.forms ["net/http", "net/http.*ServeMux"]) (a b : Arg) (hargs : c.args = [a, b])
    (s v : Str) (hs : Spelled s v) (ps : List Paths.MuxPiece) (hok : ∀ p ∈ ps, p.Ok) (rest : Str) (hslash : ps.flatMap Paths.MuxPiece.text = '/' :: rest)
    (hend : ∀ d, (ps.flatMap Paths.MuxPiece.text).getLast? = some d → d ∉ [' ', '\t', '\n', '\r', '\x0b', '\x0c', '"', '\''])
    (ha : a.path = s ++ ' ' :: ps.flatMap Paths.MuxPiece.text) :
    Says (execute ascii up httpPats c {}) v (ps.flatMap Paths.MuxPiece.openapi) b.hInfo := by
  have hend' : ∀ d, (ps.flatMap Paths.MuxPiece.text).getLast? = some d → Paths.isSpace d = false ∧ Paths.isQuote d = false := by
    intro d hd
    have := hend d hd
    simp only [List.mem_cons, List.not_mem_nil, or_false, not_or] at this
    simp [Paths.isSpace, Paths.isQuote, this]
  have hsplit : Paths.splitMethodFromPath a.path = (v, ps.flatMap Paths.MuxPiece.text) := by
    have := Paths.C53_method_split [] s [] (ps.flatMap Paths.MuxPiece.text) [] []
      (by rw [hs.2]; exact hs.1)
      (by
        intro d hd
        have h1 := spelled_chars hs d hd
        constructor
        · cases hsp : Paths.isSpace d with
          | false => rfl
          | true =>
            simp only [Paths.isSpace, Bool.or_eq_true, beq_iff_eq] at hsp
            rcases hsp with ((((e | e) | e) | e) | e) | e <;> (subst e; exact absurd h1 (by decide))
        · cases hsp : Paths.isQuote d with
          | false => rfl
          | true =>
            simp only [Paths.isQuote, Bool.or_eq_true, beq_iff_eq] at hsp
            rcases hsp with e | e <;> (subst e; exact absurd h1 (by decide)))
      (by simp) (by simp) (by simp) (by simp)
      ⟨by intro d hd; rw [hslash] at hd; cases hd; decide, fun d hd => (hend' d hd).1⟩ (fun d hd => (hend' d hd).2) (by rw [hslash]; simp)
    rw [hs.2] at this
    simpa [ha] using this
  have hv : v ≠ [] := by
    rintro rfl
    exact absurd hs.1 (by decide)
  obtain ⟨h1, _, h3, h4⟩ := http_says c hn hr a b hargs
  rw [hsplit] at h1
  obtain ⟨k1, k2, k3⟩ := h1 hv
  refine ⟨k1, h3, k2, ?_, h4⟩
  rw [k3]
  show shown (Paths.normalizeServeMux (ps.flatMap Paths.MuxPiece.text)) = _
  rw [Paths.C53_servemux_normalised ps hok]

/-- **C98, net/http, no verb.**  `HandleFunc("/users/{id}", h)` serves every verb; the verb is left open (as
`POST`) and the path documented. -/
theorem C98_http_any (c : Call) (hn : c.name = "HandleFunc".toList ∨ c.name = "Handle".toList) (hr : On c.forms ["net/http", "net/http.*ServeMux"]) (a b : Arg) (hargs : c.args = [a, b])
    (ps : List Paths.MuxPiece) (hok : ∀ p ∈ ps, p.Ok) (ha : a.path = ps.flatMap Paths.MuxPiece.text) (hsp : ' ' ∉ a.path)
    (hh : ∀ d, a.path.head? = some d → d ≠ '"' ∧ d ≠ '\'') (hl : ∀ d, a.path.getLast? = some d → d ≠ '"' ∧ d ≠ '\'') :
    let r := execute ascii up httpPats c {}
    r.method = "POST".toList ∧ r.explicit = false ∧ r.path = shown (ps.flatMap Paths.MuxPiece.openapi) ∧ r.function = b.hInfo := by
  intro r
  have hsplit : Paths.splitMethodFromPath a.path = ([], a.path) :=
    Paths.C53_no_method a.path hsp ⟨fun d hd => by simp [Paths.isQuote, hh d hd], fun d hd => by simp [Paths.isQuote, hl d hd]⟩
  obtain ⟨_, h2, _, h4⟩ := http_says c hn hr a b hargs
  rw [hsplit] at h2
  obtain ⟨k1, k2, k3⟩ := h2 rfl
  refine ⟨k1, k2, ?_, h4⟩
  rw [k3, ha, Paths.C53_servemux_normalised ps hok]

example : Says (execute ascii up httpPats ⟨"HandleFunc".toList, "net/http".toList, "main.go:3".toList,
    [{ path := "get /f".toList }, { hInfo := "app.get".toList, hPkg := "app".toList }], ["net/http.*ServeMux".toList]⟩ {}) "GET".toList "/f".toList "app.get".toList :=
  C98_http_verb _ (.inl rfl) ⟨"net/http.*ServeMux".toList, List.mem_cons_self .., by decide⟩ { path := "get /f".toList } { hInfo := "app.get".toList, hPkg := "app".toList } rfl
    "get".toList "GET".toList (by unfold Spelled; decide) [.lit '/', .lit 'f'] (by
      intro p hp
      rcases List.mem_cons.1 hp with e | hp
      · subst e; show '/' ≠ '{'; decide
      · rcases List.mem_cons.1 hp with e | hp
        · subst e; show 'f' ≠ '{'; decide
        · cases hp) ['f'] rfl (by intro d hd; cases hd; decide) rfl

end Verif.RouteExtract
