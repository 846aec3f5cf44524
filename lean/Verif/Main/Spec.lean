import Verif.Config.Names
import Verif.Traverse.Props
import Verif.Main.Model

/-!
# What a command line asks for (specification for C92, C93)

Everything here is read off the list of options given.
-/

namespace Verif.Main

open Verif.Ignore (Ctx)
open Verif.Traverse (Path Opts)
open Verif.Config (Tok given chars lastArg lastOf imageExpr ignoredNames Valid)

/-- The size in the last option `x`, or the default. -/
def sizeOpt (x : Char) (dflt : Int) (ts : List Tok) : Int :=
  match lastArg x ts with
  | none => dflt
  | some a => match HumanSize.parse a with
    | .ok v => v
    | _ => dflt

/-- Matching without regard to case. -/
def anyCase (ts : List Tok) : Bool := decide ('c' ∈ chars ts ∨ 'I' ∈ chars ts)

/-- Which files are asked for. -/
def asked (m : Machine) (globals : List Ctx) (ts : List Tok) : Opts where
  follow := decide ('f' ∈ chars ts)
  hidden := decide ('a' ∈ chars ts)
  recurse := decide (((chars ts).filter (· ∈ ['r', 'R'])).getLast? ≠ some 'R')
  icase := anyCase ts
  gitignore := true
  uid := m.uid
  gids := m.groups ++ [m.egid]
  minsize := sizeOpt 'm' 0 ts
  maxsize := sizeOpt 'M' 0 ts
  pPath := lastArg 'p' ts
  igNames := ignoredNames ts
  igRe := (lastArg 'e' ts).bind (m.compile · (anyCase ts))
  wlRe := (lastOf ['w', 'I'] ts).bind (fun oa => m.compile (if oa.1 = 'w' then oa.2 else imageExpr) (anyCase ts))
  engine := m.engine
  globals := globals

/-- The separator between the names of a group. -/
def separator (ts : List Tok) : Char :=
  match lastArg 's' ts with
  | some a => a.head?.getD '\x00'
  | none => '\n'

/-- The place an argument stands for: itself, or its resolved path if JSON is asked for. -/
def place (m : Machine) (ts : List Tok) (a : Path) : Option Path := if 'J' ∈ chars ts then m.merge a else some a

/-- Every expression asked for is well-formed. -/
def Expressions (m : Machine) (ts : List Tok) : Prop :=
  (∀ a, lastArg 'e' ts = some a → (m.compile a (anyCase ts)).isSome = true) ∧
  (∀ oa, lastOf ['w', 'I'] ts = some oa → (m.compile (if oa.1 = 'w' then oa.2 else imageExpr) (anyCase ts)).isSome = true) ∧
  ('t' ∈ chars ts → (m.compile Config.archiveExpr (anyCase ts)).isSome = true)

/-- Help or version is asked for before anything that is wrong. -/
def Help (ts : List Tok) : Prop := ∃ pre o a post, given ts = pre ++ (o, a) :: post ∧ (o = 'h' ∨ o = 'V') ∧ ∀ oa ∈ pre, Valid oa

end Verif.Main
