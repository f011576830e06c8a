import Verif.Model.Inspect
/-!
What is shown of a recorded version.
-/
namespace Verif.Props

open Verif Versioner

/-- The dependencies that are listed, with the text that is shown for each. -/
def listed (l : List PItem) : List (DepKey × String) :=
  l.filterMap fun
    | .globalVar k t => some (k, t)
    | .code k t => some (k, t)
    | _ => none

/-- The history of the component has this content under this id, with this semantic version. -/
def InHistory (fuel : Nat) (s : Versioner) (k : DepKey) (h : String) (c : Content) (sem : String) : Prop :=
  ∃ d o, s.dags.get? k = some d ∧ d.commits.get? h = some o ∧ o.semanticHash = sem ∧ d.getContent fuel h = .ok c

/-- Histories are not longer than the depth of recursion that python allows. -/
def Shallow (fuel : Nat) (s : Versioner) : Prop := ∀ k d, s.dags.get? k = some d → d.commits.length ≤ fuel

/-- The content with this hash has the semantic version `x`. -/
def VersionOf (s : Versioner) (k : DepKey) (h x : String) : Prop := ∃ d o, s.dags.get? k = some d ∧ d.commits.get? h = some o ∧ o.semanticHash = x

/-- What a listing of the version must be like; `v.contentExpansion` is what the calls of this version have used. -/
structure Faithful (H : Val → String) (fuel : Nat) (s : Versioner) (v : Version) (l : List PItem) : Prop where
  /-- every dependency is listed, once -/
  once : ((listed l).map (·.1)).Nodup
  all : ∀ k, k ∈ (listed l).map (·.1) ↔ k ∈ v.contentExpansion.keys
  /-- the text shown for it is recorded in its history, and whatever the calls have used has the same semantic version as this text -/
  text : ∀ k t, (k, t) ∈ listed l → ∃ c x, InHistory fuel s k (c.hash H) c x ∧ t = c.presentable ∧
    ∀ hs, v.contentExpansion.get? k = some hs → ∀ h ∈ hs, VersionOf s k h x

/-- The text shown is what the calls have used. -/
def Exact (H : Val → String) (v : Version) (l : List PItem) : Prop :=
  ∀ k t, (k, t) ∈ listed l → ∃ c : Content, t = c.presentable ∧ ∃ hs, v.contentExpansion.get? k = some hs ∧ c.hash H ∈ hs

end Verif.Props
