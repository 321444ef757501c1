import Verif.HeadModel
/-!
# C103: the head of the document
-/

namespace Verif.Head

/-! ### Specification -/

/-- The first of the candidates that says anything. -/
def firstGiven : List String → String
  | [] => ""
  | s :: l => if s ≠ "" then s else firstGiven l

/-- `d` ends with `n`. -/
def EndsWith (d n : String) : Prop := ∃ p : String, d = p ++ n

/-! ### Lemmas -/

theorem orElse_first (a b : String) : orElse a b = firstGiven [a, b] := by
  unfold orElse firstGiven
  by_cases h : a = "" <;> simp [h, firstGiven]

theorem endsWith_iff (d n : String) : n.toList.isSuffixOf d.toList = true ↔ EndsWith d n := by
  rw [List.isSuffixOf_iff_suffix]
  constructor
  · rintro ⟨p, hp⟩
    refine ⟨String.ofList p, ?_⟩
    rw [← String.toList_inj, String.toList_append, show (String.ofList p).toList = p from String.toList_ofList]
    exact hp.symm
  · rintro ⟨p, hp⟩
    exact ⟨p.toList, by rw [hp, String.toList_append]⟩

theorem append_ne {p n : String} (hn : n ≠ "") : p ++ n ≠ "" := by
  intro h
  have : p = "" ∧ n = "" := by simpa using h
  exact hn this.2

theorem notice_ne : notice ≠ "" := by decide

theorem withNotice_ends (d : String) : EndsWith (withNotice d) notice := by
  unfold withNotice
  by_cases h : notice.toList.isSuffixOf d.toList = true
  · rw [if_pos h]; exact (endsWith_iff d notice).mp h
  · rw [if_neg h]; exact ⟨d, rfl⟩

theorem withNotice_ne (d : String) : withNotice d ≠ "" := by
  obtain ⟨p, hp⟩ := withNotice_ends d
  rw [hp]; exact append_ne notice_ne

theorem orElse_ne {a b : String} (h : b ≠ "") : orElse a b ≠ "" := by
  unfold orElse
  by_cases ha : a = ""
  · rw [if_pos ha]; exact h
  · rw [if_neg ha]; exact ha

theorem orElse_of_ne {a b : String} (h : a ≠ "") : orElse a b = a := if_neg h

theorem fill_title_ne (o : Opts) (i : Info) : (fill (newEngine o) i).title ≠ "" := orElse_ne (orElse_ne (by decide))
theorem fill_version_ne (o : Opts) (i : Info) : (fill (newEngine o) i).version ≠ "" := orElse_ne (orElse_ne (by decide))
theorem fill_desc_ne (o : Opts) (i : Info) : (fill (newEngine o) i).desc ≠ "" := orElse_ne (withNotice_ne _)

theorem document_info {α : Type} (o : Opts) (c : Config α) : (document o c).info = fill (newEngine o) c.info := by
  show mapInfo _ _ (fill (newEngine o) c.info) = _
  unfold mapInfo
  rw [if_pos (Or.inl (fill_title_ne o c.info)), orElse_of_ne (fill_title_ne o c.info), orElse_of_ne (fill_version_ne o c.info)]

theorem orElse3 (a b d : String) : orElse a (orElse b d) = firstGiven [a, b, d] := by
  unfold orElse
  simp only [firstGiven]
  by_cases ha : a = "" <;> by_cases hb : b = "" <;> by_cases hd : d = "" <;> simp [ha, hb, hd]

/-! ### The properties -/

/-- Title, version and OpenAPI version: what the configuration says, else the option, else the default — so the
document always has the three a reader requires. -/
theorem C103_required {α : Type} (o : Opts) (c : Config α) :
    (document o c).info.title = firstGiven [c.info.title, o.title, "Generated API"] ∧
    (document o c).info.version = firstGiven [c.info.version, o.version, "1.0.0"] ∧
    (document o c).openapi = firstGiven [o.openapi, "3.1.1"] ∧
    (document o c).info.title ≠ "" ∧ (document o c).info.version ≠ "" ∧ (document o c).openapi ≠ "" := by
  rw [document_info]
  exact ⟨orElse3 _ _ _, orElse3 _ _ _, orElse_first _ _, fill_title_ne o _, fill_version_ne o _, orElse_ne (by decide)⟩

example : (document { noOpts with title := "Shop" } (⟨⟨"", "", "", "2.0", none, none⟩, 0, 0, 0, 0⟩ : Config Nat)).info.title = "Shop" ∧
    (document { noOpts with version := "9" } (⟨⟨"", "", "", "2.0", none, none⟩, 0, 0, 0, 0⟩ : Config Nat)).info.version = "2.0" := by decide

/-- The description of the configuration is used as it stands; otherwise it is the option followed by the notice, which
is not repeated. -/
theorem C103_description {α : Type} (o : Opts) (c : Config α) :
    (c.info.desc ≠ "" → (document o c).info.desc = c.info.desc) ∧
    (c.info.desc = "" → EndsWith o.desc notice → (document o c).info.desc = o.desc) ∧
    (c.info.desc = "" → ¬ EndsWith o.desc notice → (document o c).info.desc = o.desc ++ notice) := by
  rw [document_info]
  refine ⟨fun h => orElse_of_ne h, fun h he => ?_, fun h he => ?_⟩
  · show orElse c.info.desc (withNotice o.desc) = _
    unfold orElse withNotice
    rw [if_pos h, if_pos ((endsWith_iff _ _).mpr he)]
  · show orElse c.info.desc (withNotice o.desc) = _
    unfold orElse withNotice
    rw [if_pos h, if_neg (fun hh => he ((endsWith_iff _ _).mp hh))]

example : (document { noOpts with desc := "Sells" } (⟨⟨"", "", "", "", none, none⟩, 0, 0, 0, 0⟩ : Config Nat)).info.desc = "Sells" ++ notice ∧
    (document noOpts (⟨⟨"", "Mine", "", "", none, none⟩, 0, 0, 0, 0⟩ : Config Nat)).info.desc = "Mine" := by decide

/-- Terms, contact and licence: those of the configuration, else those of the options.  A contact or licence of the
configuration is taken whole.  Servers, global security, tags and documentation are those of the configuration. -/
theorem C103_details {α : Type} (o : Opts) (c : Config α) :
    (document o c).info.terms = firstGiven [c.info.terms, o.terms] ∧
    (∀ k, c.info.contact = some k → (document o c).info.contact = some k) ∧
    (c.info.contact = none → (document o c).info.contact = some ⟨firstGiven [o.contactName, "Ehab"],
      firstGiven [o.contactURL, "https://ehabterra.github.io/"], firstGiven [o.contactEmail, "ehabterra@hotmail.com"]⟩) ∧
    (∀ l, c.info.license = some l → (document o c).info.license = some l) ∧
    (c.info.license = none → (document o c).info.license = some ⟨o.licenseName, o.licenseURL⟩) ∧
    (document o c).servers = c.servers ∧ (document o c).security = c.security ∧ (document o c).tags = c.tags ∧ (document o c).docs = c.docs := by
  rw [document_info]
  refine ⟨orElse_first _ _, fun k h => ?_, fun h => ?_, fun l h => ?_, fun h => ?_, rfl, rfl, rfl, rfl⟩
  · show some (c.info.contact.getD _) = _
    rw [h]; rfl
  · show some (c.info.contact.getD _) = _
    rw [h]
    show some (Contact.mk (orElse _ _) (orElse _ _) (orElse _ _)) = _
    rw [orElse_first, orElse_first, orElse_first]
  · show some (c.info.license.getD _) = _
    rw [h]; rfl
  · show some (c.info.license.getD _) = _
    rw [h]; rfl

example : (document { noOpts with licenseName := "MIT" } (⟨⟨"", "", "", "", some ⟨"Ops", "", ""⟩, none⟩, 0, 0, 0, 0⟩ : Config Nat)).info.contact
    = some ⟨"Ops", "", ""⟩ := by decide

/-- A run with the configuration that an earlier run wrote gives the same information whatever its options are, except
that terms the first run did not have can come from them. -/
theorem C103_effective {α : Type} (o o' : Opts) (c : Config α) :
    (document o' (effective o c)).info = { (document o c).info with terms := firstGiven [(document o c).info.terms, o'.terms] } ∧
    ((document o c).info.terms ≠ "" → (document o' (effective o c)).info = (document o c).info) := by
  have key : (document o' (effective o c)).info = { (document o c).info with terms := firstGiven [(document o c).info.terms, o'.terms] } := by
    rw [document_info, document_info]
    show fill (newEngine o') (fill (newEngine o) c.info) = _
    show Info.mk (orElse _ _) (orElse _ _) (orElse _ _) (orElse _ _) _ _ = _
    rw [orElse_of_ne (fill_title_ne o c.info), orElse_of_ne (fill_version_ne o c.info), orElse_of_ne (fill_desc_ne o c.info), orElse_first]
    rfl
  refine ⟨key, fun h => ?_⟩
  rw [key]
  have : firstGiven [(document o c).info.terms, o'.terms] = (document o c).info.terms := by
    rw [← orElse_first]; exact orElse_of_ne h
  rw [this]

example : (document { noOpts with title := "Other" } (effective noOpts (⟨⟨"", "", "https://t", "", none, none⟩, 0, 0, 0, 0⟩ : Config Nat))).info.title
    = "Generated API" := by decide

/-- A run from the UI describes the API as the command line does with the same configuration and no options. -/
theorem C103_ui {α : Type} (openapi : String) (c : Config α) :
    (document (uiOpts c.info openapi) c).info = (document noOpts c).info := by
  rw [document_info, document_info]
  obtain ⟨⟨t, d, tm, v, k, l⟩, s, se, tg, dc⟩ := c
  have h1 : ∀ a x : String, orElse a (orElse a x) = orElse a (orElse "" x) := by
    intro a x; unfold orElse; by_cases h : a = "" <;> simp [h]
  have h2 : ∀ a : String, orElse a (withNotice a) = orElse a (withNotice "") := by
    intro a; unfold orElse; by_cases h : a = "" <;> simp [h]
  cases k with
  | none => cases l with
    | none =>
      show Info.mk (orElse t (orElse t _)) (orElse d (withNotice d)) _ (orElse v (orElse v _)) _ _ = Info.mk (orElse t (orElse "" _)) (orElse d (withNotice "")) _ (orElse v (orElse "" _)) _ _
      rw [h1, h1, h2]; rfl
    | some l =>
      show Info.mk (orElse t (orElse t _)) (orElse d (withNotice d)) _ (orElse v (orElse v _)) _ _ = Info.mk (orElse t (orElse "" _)) (orElse d (withNotice "")) _ (orElse v (orElse "" _)) _ _
      rw [h1, h1, h2]; rfl
  | some k => cases l with
    | none =>
      show Info.mk (orElse t (orElse t _)) (orElse d (withNotice d)) _ (orElse v (orElse v _)) _ _ = Info.mk (orElse t (orElse "" _)) (orElse d (withNotice "")) _ (orElse v (orElse "" _)) _ _
      rw [h1, h1, h2]; rfl
    | some l =>
      show Info.mk (orElse t (orElse t _)) (orElse d (withNotice d)) _ (orElse v (orElse v _)) _ _ = Info.mk (orElse t (orElse "" _)) (orElse d (withNotice "")) _ (orElse v (orElse "" _)) _ _
      rw [h1, h1, h2]; rfl

example : (document (uiOpts ⟨"Shop", "", "", "", none, some ⟨"MIT", ""⟩⟩ "3.0.3") (⟨⟨"Shop", "", "", "", none, some ⟨"MIT", ""⟩⟩, 0, 0, 0, 0⟩ : Config Nat)).info.license
    = some ⟨"MIT", ""⟩ := by decide

/-! ### What does not hold -/

/-- Without a contact in the configuration, every document names a contact, by default the author of the tool; no
option leaves it out. -/
theorem C103_contact_forced {α : Type} (o : Opts) (c : Config α) (h : c.info.contact = none) :
    ∃ k, (document o c).info.contact = some k ∧ k.name ≠ "" ∧ k.url ≠ "" ∧ k.email ≠ "" := by
  rw [document_info]
  show ∃ k, some (c.info.contact.getD _) = some k ∧ _
  rw [h]
  exact ⟨_, rfl, orElse_ne (by decide), orElse_ne (by decide), orElse_ne (by decide)⟩

example : (document noOpts (⟨⟨"", "", "", "", none, none⟩, 0, 0, 0, 0⟩ : Config Nat)).info.contact
    = some ⟨"Ehab", "https://ehabterra.github.io/", "ehabterra@hotmail.com"⟩ := by decide

/-- Without a licence in configuration and options the document has a licence without a name, which OpenAPI does not
allow. -/
theorem C103_license_unnamed : ∃ c : Config Nat, (document noOpts c).info.license = some ⟨"", ""⟩ :=
  ⟨⟨⟨"Shop", "", "", "1", none, none⟩, 0, 0, 0, 0⟩, by decide⟩

/-- An option does not override the configuration, even when it was given explicitly; and a contact with a name in the
configuration loses the address given as an option. -/
theorem C103_option_ignored : ∃ (o : Opts) (c : Config Nat), o.title = "From option" ∧ (document o c).info.title = "From file" ∧
    o.contactEmail = "a@b" ∧ (document o c).info.contact = some ⟨"Ops", "", ""⟩ :=
  ⟨{ noOpts with title := "From option", contactEmail := "a@b" }, ⟨⟨"From file", "", "", "", some ⟨"Ops", "", ""⟩, none⟩, 0, 0, 0, 0⟩, by decide⟩

/-- A description of the options is not what the document says: the notice of the tool follows it, and the document
states the tool's licence as if it were the API's. -/
theorem C103_notice_added {α : Type} (o : Opts) (c : Config α) (h : c.info.desc = "") : EndsWith (document o c).info.desc notice := by
  rw [document_info]
  show EndsWith (orElse c.info.desc (withNotice o.desc)) notice
  unfold orElse
  rw [if_pos h]
  exact withNotice_ends _

example : (document noOpts (⟨⟨"", "", "", "", none, none⟩, 0, 0, 0, 0⟩ : Config Nat)).info.desc = notice := by decide

/-- Used as a library, the mapping drops contact, licence and terms when title, description and version are empty. -/
theorem C103_library_drops : ∃ i : Info, i.contact = some ⟨"Ops", "", "ops@x"⟩ ∧ i.terms = "https://t" ∧
    mapInfo "Shop" "1" i = ⟨"Shop", "", "", "1", none, none⟩ :=
  ⟨⟨"", "", "https://t", "", some ⟨"Ops", "", "ops@x"⟩, none⟩, by decide⟩

end Verif.Head
