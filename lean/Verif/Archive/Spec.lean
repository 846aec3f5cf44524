import Verif.Archive.Model

/-!
# What extracting a member should do (specification for C83, C84)

Of the model only the description of archives, of the disk and of the records of files is used, none of its functions.
-/

namespace Verif.Archive

/-- A part of a file: an offset and the bytes from there on. -/
abbrev Part := Nat × List UInt8

/-- Whether a part has a byte at a position. -/
def Part.covers (p : Part) (k : Nat) : Prop := p.1 ≤ k ∧ k < p.1 + p.2.length

/-- The file made of parts written one after the other: at each position the byte of the last part that has one there, zero in gaps, and no longer than the
parts reach. -/
structure Assembled (ps : List Part) (c : List UInt8) : Prop where
  /-- A byte of a part that no later part overwrites. -/
  byte : ∀ a p b k, ps = a ++ p :: b → p.covers k → (∀ q ∈ b, ¬ q.covers k) → c[k]? = p.2[k - p.1]?
  /-- Gaps. -/
  gap : ∀ k, k < c.length → (∀ p ∈ ps, ¬ p.covers k) → c[k]? = some 0
  /-- Behind the last part. -/
  size : ∀ n, c.length ≤ n ↔ ∀ p ∈ ps, p.2 ≠ [] → p.1 + p.2.length ≤ n

/-- The parts of a member, in the order of the archive. -/
def partsOf : List Block → List Part
  | [] => []
  | .error :: r => partsOf r
  | .data off b _ :: r => (off, b) :: partsOf r

/-- All the blocks of a member can be read from the archive and written to the disk. -/
def Sound (blocks : List Block) : Prop := ∀ b ∈ blocks, ∃ off bytes, b = .data off bytes true

/-- Members that can be read and have other names. -/
def Passed (sub : String) (items : List Item) : Prop := ∀ i ∈ items, ∃ n o b, i = .member n o b ∧ n ≠ sub

/-- A name that `mkstemp` chooses is not in use. -/
def World.Fresh (w : World) : Prop := ∀ fs p, w.mkstemp fs = some p → fs p = none

/-- The archive has a member of this name that can be extracted, and these are its contents: the first of that name, behind members that can be read. -/
def Member (a : Archive) (sub : String) (c : List UInt8) : Prop :=
  ∃ pre blocks rest, a = some (pre ++ .member sub true blocks :: rest) ∧ Passed sub pre ∧ Sound blocks ∧ Assembled (partsOf blocks) c

/-- What a record stands for: with `-t` and a member named, the contents of the member; otherwise the file itself. -/
def Means (w : World) (st : St) (untar : Bool) (f : ArcFile) (o : Option (List UInt8)) : Prop :=
  match untar, f.sub with
  | true, .name s => ∃ c, Member (w.archives f.ent.path) s c ∧ o = some c
  | _, _ => o = st.files f.ent.path

end Verif.Archive
