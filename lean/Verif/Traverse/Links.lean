import Verif.Traverse.Defined
import Verif.Output.Lemmas

/-!
# Following links (C74)

A file system with symbolic links is a graph of directories and files: an entry of a directory stands for a node directly or through a
link.  Opening a path follows at most `limit` links (`ELOOP`) and needs a path of less than `pathMax` characters (`ENAMETOOLONG`).  For all such
file systems it is said when a scan with `-f` is undefined.
-/

namespace Verif.Traverse

open Verif.Ignore (Engine Ctx ignoreMatch loadContent)
open Verif.Report (FileEnt)
open Verif.Output (cutAt)

/-! ## The file system -/

/-- What a directory entry stands for: a node, or a link that is resolved through `more` further links to a node or to nothing. -/
inductive Target (ν : Type) where
  | hard (v : ν)
  | link (v : Option ν) (more : Nat)

/-- A file system: what the nodes are, what the directories list and whether they can be listed, and the ignore file in a directory. -/
structure Graph (ν : Type) where
  info : ν → Finfo
  ents : ν → List (Path × Target ν)
  listable : ν → Bool
  rules : ν → Option (List Char)

variable {ν : Type}

/-- The end of an entry, `k` links having been followed before. -/
def Target.goes (limit k : Nat) : Target ν → Option (ν × Nat)
  | .hard v => some (v, k)
  | .link v more => if k + more + 1 ≤ limit then v.map (·, k + more + 1) else none

/-- What `readdir` says about the kind of an entry. -/
def Target.kind (g : Graph ν) : Target ν → Kind
  | .hard v => (g.info v).kind
  | .link _ _ => .lnk

/-- From a node, go through the named entries. -/
def Graph.walk (g : Graph ν) (limit : Nat) : ν × Nat → List Path → Option (ν × Nat)
  | s, [] => some s
  | s, n :: ns =>
    match (g.ents s.1).find? (fun e => decide (e.1 = n)) with
    | none => none
    | some e =>
      match e.2.goes limit s.2 with
      | none => none
      | some s' => g.walk limit s' ns

/-- As `walk`, but a link at the end is not followed (`lstat`). -/
def Graph.lwalk (g : Graph ν) (limit : Nat) : ν × Nat → List Path → Option Finfo
  | s, [] => some (g.info s.1)
  | s, n :: ns =>
    match (g.ents s.1).find? (fun e => decide (e.1 = n)) with
    | none => none
    | some e =>
      match e.2.goes limit s.2, e.2, ns with
      | _, .link _ _, [] => some { kind := .lnk }
      | none, _, _ => none
      | some s', _, ns => g.lwalk limit s' ns

/-- A mounted graph: the path `arg` is the node `top`. -/
structure Mount (ν : Type) where
  graph : Graph ν
  limit : Nat
  pathMax : Nat
  arg : Path
  top : ν

/-- `arg` with a slash at its end. -/
def Mount.base (m : Mount ν) : Path := if m.arg.getLast? = some '/' then m.arg else m.arg ++ ['/']

/-- The names below `arg` in a path. -/
def Mount.names (m : Mount ν) (p : Path) : Option (List Path) :=
  if m.pathMax ≤ p.length then none
  else if p = m.arg then some []
  else if m.base.isPrefixOf p then some (cutAt '/' (p.drop m.base.length) [])
  else none

/-- Where a path leads, and through how many links. -/
def Mount.place (m : Mount ν) (p : Path) : Option (ν × Nat) := (m.names p).bind (m.graph.walk m.limit (m.top, 0))

/-- The file system as the program meets it. -/
def Mount.fs (m : Mount ν) : FS where
  stat follow p := if follow then (m.place p).map (fun s => m.graph.info s.1) else (m.names p).bind (m.graph.lwalk m.limit (m.top, 0))
  readdir p := (m.place p).bind (fun s => if (m.graph.info s.1).kind = .dir ∧ m.graph.listable s.1 = true then
      some ((m.graph.ents s.1).map (fun e => (e.1, e.2.kind m.graph))) else none)
  ignore p := (m.place p).bind (fun s => m.graph.rules s.1)

/-- The names are those a file system allows, each once in a directory; `arg` is a path that can be opened; and directories entered without links lie ever
deeper: the entries with one of the names in `skip` (as `.` and `..`) excepted, the rank goes down. -/
structure Mount.Sound (m : Mount ν) (skip : List Path) (rank : ν → Nat) (height : Nat) : Prop where
  name : ∀ v, ∀ e ∈ m.graph.ents v, e.1 ≠ [] ∧ '/' ∉ e.1
  once : ∀ v, ((m.graph.ents v).map Prod.fst).Nodup
  arg : m.arg ≠ [] ∧ m.arg.length < m.pathMax
  down : ∀ v name u, (name, Target.hard u) ∈ m.graph.ents v → name ∉ skip → rank u < rank v
  bound : ∀ v, rank v ≤ height

/-! ## Lemmas -/

theorem cutAt_snoc (sep : Char) (n : Path) (hn : sep ∉ n) : ∀ (s acc : Path), cutAt sep (s ++ sep :: n) acc = cutAt sep s acc ++ [n] := by
  intro s
  induction s with
  | nil =>
    intro acc
    have := Output.cutAt_name sep n [] [] hn
    rw [List.append_nil] at this
    simp [cutAt, this]
  | cons c s ih =>
    intro acc
    rw [List.cons_append, cutAt, cutAt]
    split
    · rw [ih]; rfl
    · exact ih _

theorem cutAt_last (sep : Char) : ∀ (s acc : Path), s.getLast? = some sep → [] ∈ cutAt sep s acc := by
  intro s
  induction s with
  | nil => intro acc h; simp at h
  | cons c s ih =>
    intro acc h
    rw [cutAt]
    cases s with
    | nil =>
      simp only [List.getLast?_singleton, Option.some.injEq] at h
      rw [if_pos h]; simp [cutAt]
    | cons d s =>
      rw [List.getLast?_cons_cons] at h
      split
      · exact List.mem_cons_of_mem _ (ih [] h)
      · exact ih _ h

theorem walk_append (g : Graph ν) (limit : Nat) (n : Path) : ∀ (ns : List Path) (s : ν × Nat), g.walk limit s (ns ++ [n]) = (g.walk limit s ns).bind (fun s' => g.walk limit s' [n]) := by
  intro ns
  induction ns with
  | nil => intro s; rfl
  | cons a ns ih =>
    intro s
    rw [List.cons_append, Graph.walk, Graph.walk]
    split
    · rfl
    · split
      · rfl
      · exact ih _

theorem walk_nil_name {g : Graph ν} (hg : ∀ v, ∀ e ∈ g.ents v, e.1 ≠ [] ∧ '/' ∉ e.1) (limit : Nat) : ∀ (ns : List Path) (s : ν × Nat), [] ∈ ns → g.walk limit s ns = none := by
  intro ns
  induction ns with
  | nil => intro s h; cases h
  | cons a ns ih =>
    intro s h
    rw [Graph.walk]
    rcases List.mem_cons.1 h with rfl | h
    · have : (g.ents s.1).find? (fun e => decide (e.1 = [])) = none := by
        rw [List.find?_eq_none]
        intro e he
        simpa using (hg s.1 e he).1
      rw [this]
    · split
      · rfl
      · split
        · rfl
        · exact ih _ h

theorem find_entry {g : Graph ν} {v : ν} (hn : ((g.ents v).map Prod.fst).Nodup) {e : Path × Target ν} (he : e ∈ g.ents v) : (g.ents v).find? (fun x => decide (x.1 = e.1)) = some e := by
  revert hn he
  generalize g.ents v = l
  intro hn he
  induction l with
  | nil => cases he
  | cons a l ih =>
    rw [List.map_cons, List.nodup_cons] at hn
    rw [List.find?_cons]
    rcases List.mem_cons.1 he with rfl | he
    · simp
    · have : a.1 ≠ e.1 := fun h => hn.1 (h ▸ List.mem_map_of_mem he)
      simp only [this, decide_false]
      exact ih hn.2 he

variable {m : Mount ν} {skip : List Path} {rank : ν → Nat} {height : Nat}

theorem base_take (m : Mount ν) : m.base = m.arg ∧ m.arg.getLast? = some '/' ∨ m.base = m.arg ++ ['/'] ∧ m.arg.getLast? ≠ some '/' := by
  unfold Mount.base
  split
  · rename_i h; exact .inl ⟨rfl, h⟩
  · rename_i h; exact .inr ⟨rfl, h⟩

/-- The entry of a directory leads where its target goes, if the path is not too long. -/
theorem place_join (h : m.Sound skip rank height) {p : Path} {v : ν} {k : Nat} (hp : m.place p = some (v, k)) {e : Path × Target ν} (he : e ∈ m.graph.ents v) :
    m.place (join p e.1) = if m.pathMax ≤ (join p e.1).length then none else e.2.goes m.limit k := by
  obtain ⟨hn1, hn2⟩ := h.name v e he
  have step : m.graph.walk m.limit (v, k) [e.1] = e.2.goes m.limit k := by
    rw [Graph.walk, find_entry (h.once v) he]
    dsimp only
    cases e.2.goes m.limit k <;> rfl
  unfold Mount.place Mount.names at hp
  by_cases hlen : m.pathMax ≤ (join p e.1).length
  · rw [if_pos hlen]
    unfold Mount.place Mount.names
    rw [if_pos hlen]; rfl
  rw [if_neg hlen]
  unfold Mount.place Mount.names
  rw [if_neg hlen]
  by_cases hl : m.pathMax ≤ p.length
  · rw [if_pos hl] at hp; cases hp
  rw [if_neg hl] at hp
  have hne : ∀ x : Path, m.base ++ x ++ e.1 ≠ m.arg := by
    intro x hx
    have := congrArg List.length hx
    have h1 : e.1.length ≠ 0 := fun c => hn1 (List.length_eq_zero_iff.1 c)
    rcases base_take m with ⟨hb, _⟩ | ⟨hb, _⟩ <;> rw [hb] at this <;> simp only [List.length_append, List.length_cons, List.length_nil] at this <;> omega
  by_cases hpa : p = m.arg
  · rw [if_pos hpa] at hp
    simp only [Option.bind_some, Graph.walk, Option.some.injEq] at hp
    have hj : join p e.1 = m.base ++ e.1 := by
      unfold join
      rcases base_take m with ⟨hb, hs⟩ | ⟨hb, hs⟩
      · rw [hpa, if_pos hs, hb]
      · rw [hpa, if_neg hs, hb, List.append_assoc]; rfl
    have hcut : cutAt '/' e.1 [] = [e.1] := by
      have := Output.cutAt_name '/' e.1 [] [] hn2
      rw [List.append_nil] at this
      simp [this, cutAt]
    rw [hj, if_neg (by simpa using hne []), if_pos (List.isPrefixOf_iff_prefix.2 (List.prefix_append _ _)), List.drop_left, hcut]
    rw [Option.bind_some, hp]
    exact step
  · rw [if_neg hpa] at hp
    by_cases hpre : m.base.isPrefixOf p = true
    · rw [if_pos hpre, Option.bind_some] at hp
      obtain ⟨x, rfl⟩ := List.isPrefixOf_iff_prefix.1 hpre
      rw [List.drop_left] at hp
      have hx : x.getLast? ≠ some '/' := by
        intro hx
        rw [walk_nil_name h.name m.limit _ _ (cutAt_last '/' x [] hx)] at hp
        cases hp
      have hx0 : x ≠ [] := by
        rintro rfl
        rw [walk_nil_name h.name m.limit _ _ (by simp [cutAt])] at hp
        cases hp
      have hj : join (m.base ++ x) e.1 = m.base ++ (x ++ '/' :: e.1) := by
        unfold join
        rw [if_neg, List.append_assoc]
        rw [List.getLast?_append]
        cases hc : x.getLast? with
        | none => exact absurd (List.getLast?_eq_none_iff.1 hc) hx0
        | some c => rw [hc] at hx; exact hx
      rw [hj, if_neg (by have := hne (x ++ ['/']); simpa using this), if_pos (List.isPrefixOf_iff_prefix.2 (List.prefix_append _ _)), List.drop_left,
        Option.bind_some, cutAt_snoc '/' e.1 hn2, walk_append, hp]
      exact step
    · rw [if_neg hpre] at hp; cases hp

theorem place_arg (h : m.Sound skip rank height) : m.place m.arg = some (m.top, 0) := by
  unfold Mount.place Mount.names
  rw [if_neg (by have := h.arg.2; omega), if_pos rfl]; rfl

/-- How far down one can go from a path. -/
def Mount.depth (m : Mount ν) (rank : ν → Nat) (height : Nat) (p : Path) : Nat :=
  match m.place p with
  | none => 0
  | some (v, k) => 1 + (m.limit - k) * (height + 1) + rank v

theorem depth_join (h : m.Sound skip rank height) {o : Opts} (hs : ∀ n ∈ skip, n ∈ o.igNames) (p : Path) (es : List (Path × Kind)) (e : Path × Kind)
    (hr : m.fs.readdir p = some es) (he : e ∈ es) (hok : EntryOk o p e) : m.depth rank height (join p e.1) < m.depth rank height p := by
  unfold Mount.fs at hr
  dsimp only at hr
  cases hp : m.place p with
  | none => rw [hp] at hr; cases hr
  | some s =>
    obtain ⟨v, k⟩ := s
    rw [hp, Option.bind_some] at hr
    split at hr
    · injection hr with hr
      subst hr
      obtain ⟨⟨n, t⟩, he', rfl⟩ := List.mem_map.1 he
      unfold Mount.depth
      rw [place_join h hp he', hp]
      dsimp only
      split
      · omega
      · rename_i u k' hq
        split at hq
        · cases hq
        · cases t with
          | hard w =>
            simp only [Target.goes, Option.some.injEq, Prod.mk.injEq] at hq
            obtain ⟨rfl, rfl⟩ := hq
            have := h.down v n w he' (fun c => hok.1 (hs n c))
            omega
          | link w more =>
            simp only [Target.goes] at hq
            split at hq
            · rename_i hle
              cases w with
              | none => cases hq
              | some w =>
                simp only [Option.map_some, Option.some.injEq, Prod.mk.injEq] at hq
                obtain ⟨rfl, rfl⟩ := hq
                have h1 := h.bound w
                have h2 : (m.limit - (k + more + 1) + 1) * (height + 1) ≤ (m.limit - k) * (height + 1) := Nat.mul_le_mul_right _ (by omega)
                rw [Nat.add_mul] at h2
                omega
            · cases hq
    · cases hr

/-- A traversal with links followed fails only at a directory that cannot be listed. -/
theorem failure_cause (o : Opts) (fs : FS) (hf : o.follow = true) : ∀ (n : Nat) (p : Path) (rules : List Ctx) (l : List FileEnt),
    traverse o fs n p rules = .ok (false, l) → ∃ q rules' i, Visits o fs p rules q rules' ∧ Enters o fs q rules' i ∧ i.kind = .dir ∧ fs.readdir q = none := by
  intro n
  induction n with
  | zero => intro p rules l h; cases h
  | succ n ih =>
    intro p rules l h
    rcases traverse_cases h with ⟨hs, _, _⟩ | ⟨j, hs, hno, hb, _⟩ | ⟨i, he, hcase⟩
    · rw [traverse, fileInfo, hs, hf] at h
      cases h
    · cases hb
    · rcases hcase with ⟨hk, hr, _, _⟩ | ⟨es, inner, hk, hr, hin, hes⟩ | ⟨_, hb, _⟩
      · exact ⟨p, rules, i, .here, he, hk, hr⟩
      · obtain ⟨-, h2, -⟩ := entries_ok hes
        obtain ⟨e, hmem, hok, le, hle⟩ := h2 rfl
        obtain ⟨q, rules', j, v, rest⟩ := ih _ _ _ hle
        exact ⟨q, rules', j, .down he hk hr hmem hok hin v, rest⟩
      · cases hb

end Verif.Traverse
