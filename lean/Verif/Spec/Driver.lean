import Verif.Model.Concurrency
import Verif.Spec.Names
import Mathlib.Data.List.Forall2

/-!
# Specification of jobs, metadata and output files
-/

namespace Groot.Spec

/-- The type a mnemonic (in upper case) stands for. -/
def Names (s : Str) (t : RRType) : Prop := ∃ m, mnemonic t = some m ∧ s = m.toList

/-- Every type listed by the property is a supported type. -/
def ValidTypes (p : UProp) : Prop := ∀ l, p.types = some l → ∀ s ∈ l, ∃ t, Names s t

/-- The set of types listed by the property. -/
def TypesListed (p : UProp) (ts : TypeSet) : Prop :=
  ∀ t, Member ts t ↔ ∃ l, p.types = some l ∧ ∃ s ∈ l, Names s t

/-- What one property of a job asks for. -/
inductive Wanted where
  | path (f : PathFn)
  | node (f : NodeFn)
  | structural
  | nothing
  deriving DecidableEq

/-- A list of domain names as the user writes them. -/
def domains (l : List Str) : List Name := l.map (fun s => stringToLabels (toLower s))

/-- The names of the properties. -/
def propertyNames : List Str :=
  ["ResponseConsistency", "ResponseReturned", "ResponseValue", "Hops", "Rewrites", "DelegationConsistency", "InfiniteDNameRec",
   "LameDelegation", "QueryRewrite", "NameserverContact", "RewriteBlackholing", "AllAliases", "ZeroTTL",
   "StructuralDelegationConsistency", "DNAMESubstitutionCheck"].map String.toList

/-- The documented meaning of the properties of a job file. -/
inductive Asks (p : UProp) : Wanted → Prop where
  | consistency (ts) (h : p.name = "ResponseConsistency".toList) (ht : TypesListed p ts) : Asks p (.node (.consistency ts))
  | returned (ts) (h : p.name = "ResponseReturned".toList) (ht : TypesListed p ts) : Asks p (.node (.returned ts))
  | value (ts) (l vs : List Str) (h : p.name = "ResponseValue".toList) (ht : TypesListed p ts) (hv : p.value = .strs l) (hl : l ≠ [])
      (hs : vs.Pairwise StrLt) (hm : ∀ x, x ∈ vs ↔ x ∈ l) : Asks p (.node (.value ts vs))
  | hops (n : Int) (h : p.name = "Hops".toList) (hv : p.value = .int n) : Asks p (.path (.hops n))
  | rewrites (n : Int) (h : p.name = "Rewrites".toList) (hv : p.value = .int n) : Asks p (.path (.rewrites n))
  /-- the number is missing from `Hops` or `Rewrites`, and something else is there: whoever looks at a path will stumble over it -/
  | misfit (b : Bool) (h : p.name = "Hops".toList ∨ p.name = "Rewrites".toList) (hv : (b = true ∧ p.value = .huge) ∨
      (b = false ∧ (p.value = .other ∨ ∃ l, p.value = .strs l))) : Asks p (.path (.misfit b))
  | delegation (h : p.name = "DelegationConsistency".toList) : Asks p (.path .delegation)
  | infiniteDname (h : p.name = "InfiniteDNameRec".toList) : Asks p (.path .infiniteDname)
  | lame (h : p.name = "LameDelegation".toList) : Asks p (.path .lame)
  | queryRewrite (l : List Str) (h : p.name = "QueryRewrite".toList) (hv : p.value = .strs l) (hl : l ≠ []) :
      Asks p (.path (.queryRewrite (domains l)))
  | nsContact (l : List Str) (h : p.name = "NameserverContact".toList) (hv : p.value = .strs l) (hl : l ≠ []) :
      Asks p (.path (.nsContact (domains l)))
  | blackholing (h : p.name = "RewriteBlackholing".toList) : Asks p (.path .blackholing)
  | allAliases (l : List Str) (h : p.name = "AllAliases".toList) (hv : p.value = .strs l) (hl : l ≠ []) :
      Asks p (.path (.allAliases (domains l)))
  | zeroTTL (ts) (h : p.name = "ZeroTTL".toList) (ht : TypesListed p ts) : Asks p (.node (.zeroTTL ts))
  | structural (h : p.name = "StructuralDelegationConsistency".toList) : Asks p .structural
  | dnameLength (h : p.name = "DNAMESubstitutionCheck".toList) : Asks p (.path .dnameLength)
  /-- an empty list of values is skipped -/
  | skipped (h : p.name ∈ ["ResponseValue", "QueryRewrite", "NameserverContact", "AllAliases"].map String.toList) (hv : p.value = .strs []) :
      Asks p .nothing
  /-- other names are ignored -/
  | unknown (h : p.name ∉ propertyNames) : Asks p .nothing

def Wanted.path? : Wanted → Option PathFn
  | .path f => some f
  | _ => none

def Wanted.node? : Wanted → Option NodeFn
  | .node f => some f
  | _ => none

/-- The properties that need a number have one. -/
def Numbered (u : UJob) : Prop := ∀ p ∈ u.properties, p.name = "Hops".toList ∨ p.name = "Rewrites".toList → ∃ n, p.value = .int n

instance (v : UVal) : Decidable (∃ n, v = .int n) :=
  match v with
  | .int n => .isTrue ⟨n, rfl⟩
  | .missing | .strs _ | .huge | .other => .isFalse (fun h => by obtain ⟨n, h⟩ := h; cases h)

instance (u : UJob) : Decidable (Numbered u) := by unfold Numbered; infer_instance

/-- The job asks for the structural delegation check. -/
def AsksStructural (u : UJob) : Prop := ∃ p ∈ u.properties, p.name = "StructuralDelegationConsistency".toList

instance (u : UJob) : Decidable (AsksStructural u) := by unfold AsksStructural; infer_instance

/-- What a job description means, given the job before it. -/
structure JobMeans (prev : Job) (u : UJob) (j : Job) : Prop where
  /-- all listed types exist -/
  valid : ∀ p ∈ u.properties, ValidTypes p
  domain : j.domain = toLower u.domain
  subdomains : j.subdomains = u.subdomain
  /-- the checks are those of the properties, in order -/
  checks : ∃ ws, List.Forall₂ Asks u.properties ws ∧ j.pathFns = ws.filterMap Wanted.path? ∧ j.nodeFns = ws.filterMap Wanted.node?
  /-- the types are the listed types, and NS if some property lists none -/
  types : ∀ t, Member j.types t ↔
    (∃ p ∈ u.properties, ∃ l, p.types = some l ∧ ∃ s ∈ l, Names s t) ∨ (t = .NS ∧ ∃ p ∈ u.properties, p.types = none)
  /-- the structural check is on if this job or an earlier one asked for it -/
  structural : j.structural = true ↔ prev.structural = true ∨ AsksStructural u

/-- Metadata from which zones can be loaded. -/
structure GoodMetadata (exists_ : Str → Bool) (m : Driver.Meta) (tops : List Str) (zones : List (Str × Str × Option Str)) : Prop where
  top : m.topNameServers = some tops
  /-- each entry has a file and a name server -/
  entries : m.zoneFiles = some (zones.map (fun z => { fileName := some z.1, nameServer := some z.2.1, origin := z.2.2 }))
  /-- every file exists -/
  files : ∀ z ∈ zones, exists_ z.1 = true
  /-- a top name server hosts a zone, whatever the case of the letters -/
  hosted : ∃ t ∈ tops, ∃ z ∈ zones, toLower t = toLower z.2.1

/-- A JSON list written out: the entries between brackets, separated by a comma and a newline. -/
def listFile (entries : List Str) : Str := "[\n".toList ++ List.intercalate ",\n".toList entries ++ "\n]".toList

/-- A JSON object as it is dumped with an indentation of four: its members on lines of their own, between braces. -/
def objectText (members : List Str) : Str :=
  if members = [] then "{}".toList else "{\n".toList ++ List.intercalate ",\n".toList (members.map (fun m => "    ".toList ++ m)) ++ "\n}".toList

/-- The number of newlines. -/
def newlines (s : Str) : Nat := s.count '\n'

end Groot.Spec
