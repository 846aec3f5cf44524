import Verif.Traverse.Run

/-!
# What the order of directory entries and of arguments changes in a traversal (C105-C107)
-/

namespace Verif.Traverse

open Verif.Ignore (Ctx)
open Verif.Report (FileEnt)

/-- Two file systems that differ only in the order in which directories list their entries. -/
structure Reordered (fs fs' : FS) : Prop where
  stat : fs.stat = fs'.stat
  ignore : fs.ignore = fs'.ignore
  readdir : ∀ p, (fs.readdir p = none ∧ fs'.readdir p = none) ∨ ∃ a b, fs.readdir p = some a ∧ fs'.readdir p = some b ∧ a.Perm b

/-- The files of a visit that succeeded. -/
def got (r : Res (Bool × List FileEnt)) : List FileEnt :=
  match r with
  | .ok (true, l) => l
  | _ => []

/-- A visit succeeded. -/
def Went (r : Res (Bool × List FileEnt)) : Prop := ∃ l, r = .ok (true, l)

theorem Went.eq {r : Res (Bool × List FileEnt)} (h : Went r) : r = .ok (true, got r) := by
  obtain ⟨l, rfl⟩ := h; rfl

/-- Two visits in sequence. -/
theorem seq_ok {r s : Res (Bool × List FileEnt)} {l : List FileEnt} :
    (do let x ← r
        if x.1 then do
          let y ← s
          .ok (y.1, x.2 ++ y.2)
        else .ok (false, x.2) : Res (Bool × List FileEnt)) = .ok (true, l) ↔ Went r ∧ Went s ∧ l = got r ++ got s := by
  constructor
  · intro h
    obtain ⟨⟨b, x⟩, h1, h2⟩ := Res.bind_eq_ok.1 h
    clear h
    subst h1
    have h := h2
    clear h2
    cases b with
    | false => simp at h
    | true =>
      rw [if_pos rfl] at h
      obtain ⟨⟨b', y⟩, h2, h3⟩ := Res.bind_eq_ok.1 h
      clear h
      subst h2
      have h := h3
      clear h3
      simp only [Res.ok.injEq, Prod.mk.injEq] at h
      obtain ⟨rfl, rfl⟩ := h
      exact ⟨⟨x, rfl⟩, ⟨y, rfl⟩, rfl⟩
  · rintro ⟨⟨x, rfl⟩, ⟨y, rfl⟩, rfl⟩
    rfl

/-- Whether an entry is visited. -/
def kept (o : Opts) (dir : Path) (e : Path × Kind) : Bool := !skipName o e && !skipRe o (join dir e.1)

/-- The loop over a directory succeeds exactly if all visits do, and finds what they find. -/
theorem loop_ok (o : Opts) (visit : Path → Res (Bool × List FileEnt)) (dir : Path) : ∀ (es : List (Path × Kind)) (l : List FileEnt),
    entries o visit dir es = .ok (true, l) ↔
      (∀ e ∈ es, kept o dir e = true → Went (visit (join dir e.1))) ∧ l = (es.filter (kept o dir)).flatMap (fun e => got (visit (join dir e.1))) := by
  intro es
  induction es with
  | nil => intro l; rw [entries.eq_1]; simp only [Res.ok.injEq, Prod.mk.injEq, true_and, List.not_mem_nil, false_imp_iff, implies_true, List.filter_nil, List.flatMap_nil]; exact eq_comm
  | cons e es ih =>
    intro l
    rw [entries]
    by_cases h1 : skipName o e = true
    · have hk : kept o dir e = false := by simp [kept, h1]
      rw [if_pos h1, ih, List.filter_cons_of_neg (by simp [hk])]
      simp [hk]
    · rw [if_neg h1]
      by_cases h2 : skipRe o (join dir e.1) = true
      · have hk : kept o dir e = false := by simp [kept, h2]
        rw [if_pos h2, ih, List.filter_cons_of_neg (by simp [hk])]
        simp [hk]
      · have hk : kept o dir e = true := by simp [kept, h1, h2]
        rw [if_neg h2, seq_ok, List.filter_cons_of_pos hk]
        constructor
        · rintro ⟨h3, h4, rfl⟩
          have h5 := (ih _).mp h4.eq
          refine ⟨?_, by rw [List.flatMap_cons, ← h5.2]⟩
          intro x hx hkx
          rcases List.mem_cons.mp hx with rfl | hx
          · exact h3
          · exact h5.1 x hx hkx
        · rintro ⟨h3, rfl⟩
          have h5 := (ih _).mpr ⟨fun x hx => h3 x (List.mem_cons_of_mem _ hx), rfl⟩
          refine ⟨h3 e List.mem_cons_self hk, ⟨_, h5⟩, ?_⟩
          rw [h5, List.flatMap_cons]
          rfl

/-- So does the loop over the arguments. -/
theorem scanArgs_ok (o : Opts) (fs : FS) (n : Nat) (resolve : Path → Option Path) : ∀ (args : List Path) (l : List FileEnt),
    scanArgs o fs n resolve args = .ok (true, l) ↔
      (∀ a ∈ args, ∃ p, resolve a = some p ∧ Went (traverse o fs n p o.globals)) ∧
      l = args.flatMap (fun a => match resolve a with | some p => got (traverse o fs n p o.globals) | none => []) := by
  intro args
  induction args with
  | nil => intro l; simp [scanArgs, eq_comm]
  | cons a as ih =>
    intro l
    rw [scanArgs.eq_def]
    dsimp only
    cases hr : resolve a with
    | none => simp [hr]
    | some p =>
      dsimp only
      rw [seq_ok]
      constructor
      · rintro ⟨h3, h4, rfl⟩
        have h5 := (ih _).mp h4.eq
        refine ⟨?_, by rw [List.flatMap_cons, hr, ← h5.2]⟩
        intro x hx
        rcases List.mem_cons.mp hx with rfl | hx
        · exact ⟨p, hr, h3⟩
        · exact h5.1 x hx
      · rintro ⟨h3, rfl⟩
        have h5 := (ih _).mpr ⟨fun x hx => h3 x (List.mem_cons_of_mem _ hx), rfl⟩
        obtain ⟨q, hq, hw⟩ := h3 a List.mem_cons_self
        rw [hr] at hq
        injection hq with hq
        subst hq
        refine ⟨hw, ⟨_, h5⟩, ?_⟩
        rw [h5, List.flatMap_cons, hr]
        rfl

theorem flatMap_perm {α β : Type} {a b : List α} {f g : α → List β} (h : a.Perm b) (hfg : ∀ x ∈ a, (f x).Perm (g x)) : (a.flatMap f).Perm (b.flatMap g) := by
  refine List.Perm.trans ?_ (h.flatMap_right g)
  clear h b
  induction a with
  | nil => simp
  | cons x a ih =>
    rw [List.flatMap_cons, List.flatMap_cons]
    exact (hfg x List.mem_cons_self).append (ih (fun y hy => hfg y (List.mem_cons_of_mem _ hy)))

/-- A file found with other options for the order of the report: only its priority changes. -/
def asFor (o : Opts) (f : FileEnt) : FileEnt := { f with prio := prioritized o f.path.toList }

/-- What a success with one file system and one priority path says of another. -/
def Agree (o' : Opts) (r r' : Res (Bool × List FileEnt)) : Prop := Went r → Went r' ∧ ((got r).map (asFor o')).Perm (got r')

theorem processFile_asFor {o : Opts} (pp : Option Path) (path : Path) (i : Finfo) :
    (processFile o path i).map (asFor { o with pPath := pp }) = processFile { o with pPath := pp } path i := by
  unfold processFile
  split
  · rename_i h
    simp [asFor]
  · rfl

/-- Neither the order of entries nor the priority path changes which files a traversal finds. -/
theorem traverse_agree (o : Opts) (pp : Option Path) {fs fs' : FS} (R : Reordered fs fs') : ∀ (n : Nat) (path : Path) (chain : List Ctx),
    Agree { o with pPath := pp } (traverse o fs n path chain) (traverse { o with pPath := pp } fs' n path chain) := by
  intro n
  induction n with
  | zero => intro path chain h; obtain ⟨l, h⟩ := h; simp [traverse] at h
  | succ n ih =>
    intro path chain
    intro hw
    obtain ⟨l, hw⟩ := hw
    have hgot : got (traverse o fs (n + 1) path chain) = l := by rw [hw]; rfl
    rw [hgot]
    clear hgot
    rw [traverse.eq_def] at hw ⊢
    dsimp only at hw ⊢
    have hinfo : fileInfo { o with pPath := pp } fs' path = fileInfo o fs path := by simp only [fileInfo, R.stat]
    rw [hinfo]
    obtain ⟨info, hi, hw⟩ := Res.bind_eq_ok.1 hw
    rw [hi]; simp only [Res.ok_bind]
    cases info with
    | none => simp at hw
    | some i =>
      dsimp only at hw ⊢
      have hperm : permitted { o with pPath := pp } i = permitted o i := rfl
      rw [hperm]
      split at hw
      · rename_i h1; rw [if_pos h1]; simp only [Res.ok.injEq, Prod.mk.injEq, true_and] at hw; subst hw; exact ⟨⟨_, rfl⟩, .refl _⟩
      · rename_i h1
        rw [if_neg h1]
        split at hw
        · rename_i h2; rw [if_pos h2]; simp only [Res.ok.injEq, Prod.mk.injEq, true_and] at hw; subst hw; exact ⟨⟨_, rfl⟩, .refl _⟩
        · rename_i h2
          rw [if_neg h2]
          split at hw
          · rcases R.readdir path with ⟨e1, e2⟩ | ⟨a, b, e1, e2, hab⟩
            · rw [e1] at hw; simp at hw
            · rw [e1] at hw
              dsimp only at hw
              rw [e2]
              dsimp only
              have hopen : openCtx { o with pPath := pp } fs' path chain = openCtx o fs path chain := by simp only [openCtx, R.ignore]
              rw [hopen]
              obtain ⟨inner, hin, hw⟩ := Res.bind_eq_ok.1 hw
              rw [hin]; simp only [Res.ok_bind]
              obtain ⟨h3, hl⟩ := (loop_ok o _ path a l).mp hw
              have hkept : ∀ e, kept { o with pPath := pp } path e = kept o path e := fun _ => rfl
              have h4 : entries { o with pPath := pp } (fun p => traverse { o with pPath := pp } fs' n p inner) path b = .ok (true, _) :=
                (loop_ok _ _ _ _ _).mpr ⟨by
                  intro e he hke
                  rw [hkept] at hke
                  exact (ih (join path e.1) inner (h3 e (hab.mem_iff.mpr he) hke)).1, rfl⟩
              refine ⟨⟨_, h4⟩, ?_⟩
              rw [h4]
              rw [hl, List.map_flatMap]
              have hf : (kept { o with pPath := pp } path) = kept o path := by funext e; rfl
              simp only [got, hf]
              refine flatMap_perm (hab.filter _) ?_
              intro e he
              rw [List.mem_filter] at he
              exact (ih (join path e.1) inner (h3 e he.1 he.2)).2
          · simp only [Res.ok.injEq, Prod.mk.injEq, true_and] at hw
            subst hw
            refine ⟨⟨_, rfl⟩, ?_⟩
            show List.Perm ((processFile o path i).map _) (processFile _ path i)
            rw [processFile_asFor]
          · simp only [Res.ok.injEq, Prod.mk.injEq, true_and] at hw
            subst hw
            refine ⟨⟨_, rfl⟩, ?_⟩
            show List.Perm ((if o.follow then processFile o path i else []).map _) (if o.follow then processFile _ path i else [])
            by_cases hf : o.follow = true
            · rw [if_pos hf, if_pos hf, processFile_asFor]
            · rw [if_neg hf, if_neg hf]; exact .refl _
          · simp only [Res.ok.injEq, Prod.mk.injEq, true_and] at hw
            subst hw
            exact ⟨⟨_, rfl⟩, .refl _⟩

/-- The order of the entries of directories, the order of arguments and the priority path do not change which files a scan finds: a scan that succeeds with one
order succeeds with any other, and finds the same files as often. -/
theorem scan_agree (o : Opts) (pp : Option Path) {fs fs' : FS} (R : Reordered fs fs') (n : Nat) (resolve : Path → Option Path) {args args' : List Path}
    (ha : args.Perm args') {l : List FileEnt} (h : scanArgs o fs n resolve args = .ok (true, l)) :
    ∃ l', scanArgs { o with pPath := pp } fs' n resolve args' = .ok (true, l') ∧ (l.map (asFor { o with pPath := pp })).Perm l' := by
  obtain ⟨h1, hl⟩ := (scanArgs_ok o fs n resolve args l).mp h
  refine ⟨_, (scanArgs_ok _ fs' n resolve args' _).mpr ⟨?_, rfl⟩, ?_⟩
  · intro a haa
    obtain ⟨p, hp, hw⟩ := h1 a (ha.mem_iff.mpr haa)
    exact ⟨p, hp, (traverse_agree o pp R n p o.globals hw).1⟩
  · rw [hl, List.map_flatMap]
    refine flatMap_perm ha ?_
    intro a haa
    obtain ⟨p, hp, hw⟩ := h1 a haa
    simp only [hp]
    exact (traverse_agree o pp R n p o.globals hw).2

/-- Arguments scanned together or apart. -/
theorem scan_append (o : Opts) (fs : FS) (n : Nat) (resolve : Path → Option Path) {a b : List Path} {l k : List FileEnt}
    (h1 : scanArgs o fs n resolve a = .ok (true, l)) (h2 : scanArgs o fs n resolve b = .ok (true, k)) :
    scanArgs o fs n resolve (a ++ b) = .ok (true, l ++ k) := by
  obtain ⟨p1, rfl⟩ := (scanArgs_ok _ _ _ _ _ _).mp h1
  obtain ⟨p2, rfl⟩ := (scanArgs_ok _ _ _ _ _ _).mp h2
  refine (scanArgs_ok _ _ _ _ _ _).mpr ⟨?_, (List.flatMap_append).symm⟩
  intro x hx
  rcases List.mem_append.mp hx with hx | hx
  · exact p1 x hx
  · exact p2 x hx

end Verif.Traverse
