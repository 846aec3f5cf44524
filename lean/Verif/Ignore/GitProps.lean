import Verif.Ignore.Git

/-!
# Ignore files mean what they mean to Git (C109)
-/

namespace Verif.Ignore

theorem Clean.up {rel up q : List Char} (h : Clean rel) (e : rel = up ++ '/' :: q) : Clean up := by
  refine ⟨(h.slash up q e).1, fun pre post e' => ?_⟩
  subst e'
  have h1 := h.slash pre (post ++ '/' :: q) (by rw [e]; simp)
  refine ⟨h1.1, h1.2.1, ?_⟩
  rintro rfl
  exact (h.slash (pre ++ ['/']) q (by rw [e])).2.1 (by simp)

theorem Clean.last {rel : List Char} (h : Clean rel) : rel.getLast? ≠ some '/' := by
  intro e
  obtain ⟨q, rfl⟩ := List.getLast?_eq_some_iff.1 e
  exact (h.slash q [] rfl).2.2 rfl

theorem Clean.tail {rel q mid : List Char} (h : Clean rel) (e : rel = q ++ '/' :: mid) : mid ≠ [] ∧ mid.getLast? ≠ some '/' := by
  refine ⟨(h.slash q mid e).2.2, fun e' => h.last ?_⟩
  rw [e, List.getLast?_append]
  cases mid with
  | nil => simp at e'
  | cons c m => rw [List.getLast?_cons_cons, e']; rfl

/-- A pattern that begins with two asterisks and a slash matches below any directory if it matches at all. -/
theorem wild_below {r q s : List Char} (h : Wild true ('*' :: '*' :: '/' :: r) s) : Wild true ('*' :: '*' :: '/' :: r) (q ++ '/' :: s) := by
  cases h with
  | dirs0 h => exact .dirs h
  | @dirs u _ s h =>
    have : q ++ '/' :: (u ++ '/' :: s) = (q ++ '/' :: u) ++ '/' :: s := by simp
    rw [this]
    exact .dirs h
  | star h => exact absurd ⟨rfl, .inr ⟨_, rfl⟩⟩ h
  | lit h => simp at h

/-- The patterns on which the code and Git agree: two asterisks are aligned, and a pattern with a slash that is not anchored begins with two asterisks. -/
def Agreeing (anch : Bool) (core : List Char) : Prop :=
  Aligned true core ∧ (anch = true ∨ ('/' ∉ core ∧ core ≠ ['*', '*']) ∨ ∃ r, core = '*' :: '*' :: '/' :: r)

theorem pathMatch_git {anch : Bool} {core rel : List Char} (h : Agreeing anch core) (hr : Clean rel) : PathMatch anch false core rel ↔ GitMatch anch core rel := by
  obtain ⟨ha, hp⟩ := h
  have base : anch = true → (PathMatch anch false core rel ↔ GitMatch anch core rel) := by
    intro e
    unfold GitMatch
    rw [if_pos (.inl e)]
    refine Iff.trans ?_ (glob_wild ha rel hr.last (fun _ => hr.ne))
    constructor
    · rintro ⟨pre, mid, post, h1, h2, h3, h4⟩
      obtain rfl : pre = [] := by rcases h2 with h | ⟨h, _⟩
                                  · exact h
                                  · rw [e] at h; simp at h
      obtain rfl : post = [] := by simpa using h4
      simp at h1
      rw [h1]; exact h3
    · intro h; exact ⟨[], rel, [], by simp, .inl rfl, h, .inl rfl⟩
  rcases hp with e | ⟨hns, hne⟩ | ⟨r, hcore⟩
  · exact base e
  · cases anch with
    | true => exact base rfl
    | false =>
      unfold GitMatch
      rw [if_neg (by simp [hns])]
      constructor
      · rintro ⟨pre, mid, post, h1, h2, h3, h4⟩
        obtain rfl : post = [] := by simpa using h4
        rw [List.append_nil] at h1
        have hm := glob_noslash ha hns (fun _ => hne) mid h3
        rcases h2 with rfl | ⟨-, q, rfl⟩
        · simp at h1
          refine ⟨[], mid, .inl h1, hm, ?_⟩
          rw [← h1] at h3 ⊢
          exact (glob_wild ha rel hr.last (fun _ => hr.ne)).mp h3
        · have h1' : rel = q ++ '/' :: mid := by rw [h1]; simp
          obtain ⟨t1, t2⟩ := hr.tail h1'
          exact ⟨q, mid, .inr h1', hm, (glob_wild ha mid t2 (fun _ => t1)).mp h3⟩
      · rintro ⟨pre, name, h1, h2, h3⟩
        rcases h1 with rfl | h1
        · exact ⟨[], rel, [], by simp, .inl rfl, (glob_wild ha rel hr.last (fun _ => hr.ne)).mpr h3, .inl rfl⟩
        · obtain ⟨t1, t2⟩ := hr.tail h1
          exact ⟨pre ++ ['/'], name, [], by rw [h1]; simp, .inr ⟨rfl, pre, rfl⟩, (glob_wild ha name t2 (fun _ => t1)).mpr h3, .inl rfl⟩
  · cases anch with
    | true => exact base rfl
    | false =>
      unfold GitMatch
      rw [if_pos (.inr (by rw [hcore]; simp))]
      constructor
      · rintro ⟨pre, mid, post, h1, h2, h3, h4⟩
        obtain rfl : post = [] := by simpa using h4
        rw [List.append_nil] at h1
        rcases h2 with rfl | ⟨-, q, rfl⟩
        · simp at h1
          rw [← h1] at h3
          exact (glob_wild ha rel hr.last (fun _ => hr.ne)).mp h3
        · have h1' : rel = q ++ '/' :: mid := by rw [h1]; simp
          obtain ⟨t1, t2⟩ := hr.tail h1'
          have := (glob_wild ha mid t2 (fun _ => t1)).mp h3
          rw [h1', hcore]
          rw [hcore] at this
          exact wild_below this
      · intro h
        exact ⟨[], rel, [], by simp, .inl rfl, (glob_wild ha rel hr.last (fun _ => hr.ne)).mpr h, .inl rfl⟩

/-- A directory pattern of the code matches a path if it matches the path or a directory it lies in. -/
theorem pathMatch_dir {anch : Bool} {core rel : List Char} :
    PathMatch anch true core rel ↔ ∃ up, (rel = up ∨ ∃ q, rel = up ++ '/' :: q) ∧ PathMatch anch false core up := by
  constructor
  · rintro ⟨pre, mid, post, h1, h2, h3, h4⟩
    refine ⟨pre ++ mid, ?_, pre, mid, [], by simp, h2, h3, .inl rfl⟩
    rcases h4 with rfl | ⟨-, q, rfl⟩
    · exact .inl (by rw [h1]; simp)
    · exact .inr ⟨q, by rw [h1]⟩
  · rintro ⟨up, hup, pre, mid, post, h1, h2, h3, h4⟩
    obtain rfl : post = [] := by simpa using h4
    rw [List.append_nil] at h1
    rcases hup with rfl | ⟨q, rfl⟩
    · exact ⟨pre, mid, [], by rw [h1]; simp, h2, h3, .inl rfl⟩
    · exact ⟨pre, mid, '/' :: q, by rw [h1], h2, h3, .inr ⟨rfl, q, rfl⟩⟩

/-- C109 (missing, where the claim fails: unanchored patterns with a slash, see `inner_slash_floats`; two asterisks that are not a component of their own, see
`double_star_crosses`; blanks at the end, see `trailing_blank_kept`, and at the beginning, see `leading_blank_dropped`; and what is missing in C25): a pattern that
is no directory pattern matches the paths it matches in Git; a directory pattern matches those and what lies in them. -/
theorem git_pattern_partial (E : Engine) (hE : E.Conforms) (neg anch dir : Bool) (core : List Char) (hc : CoreOk neg anch dir core)
    (ha : Agreeing anch core) (hd : dir = true → ∀ q, core ≠ q ++ ['*', '*']) (hlen : (render neg anch core dir).length ≤ 908) (ps : List Pattern) :
    ∃ f, addPattern E ps (render neg anch core dir) = .ok (ps ++ [⟨neg, dir, f⟩]) ∧
      ∀ rel, '\n' ∉ rel → Clean rel → (f rel = true ↔ if dir then GitMatchIn anch core rel else GitMatch anch core rel) := by
  obtain ⟨f, h1, h2⟩ := pattern_matches_glob_partial E hE neg anch dir core hc hd hlen ps
  refine ⟨f, h1, fun rel hn hr => (h2 rel hn).trans ?_⟩
  cases dir with
  | false => exact pathMatch_git ha hr
  | true =>
    refine pathMatch_dir.trans ?_
    show _ ↔ GitMatchIn anch core rel
    constructor
    · rintro ⟨up, hup, h⟩
      refine ⟨up, hup, (pathMatch_git ha ?_).mp h⟩
      rcases hup with rfl | ⟨q, e⟩
      · exact hr
      · exact hr.up e
    · rintro ⟨up, hup, h⟩
      refine ⟨up, hup, (pathMatch_git ha ?_).mpr h⟩
      rcases hup with rfl | ⟨q, e⟩
      · exact hr
      · exact hr.up e

/-! ## Examples: the patterns of the README -/

example : CoreOk false false false "**/*.tmp".toList ∧ Agreeing false "**/*.tmp".toList ∧ Clean "a/b/x.tmp".toList ∧ GitMatch false "**/*.tmp".toList "a/b/x.tmp".toList := by
  have e1 : "**/*.tmp".toList = ['*', '*', '/', '*', '.', 't', 'm', 'p'] := rfl
  have e2 : "a/b/x.tmp".toList = ['a', '/', 'b', '/', 'x', '.', 't', 'm', 'p'] := rfl
  rw [e1, e2]
  refine ⟨⟨by decide, ⟨'p', by decide, by decide, by decide⟩, fun _ => ⟨'*', by decide, by decide, by decide, fun _ => by decide⟩⟩, ⟨?_, .inr (.inr ⟨_, rfl⟩)⟩, ?_, ?_⟩
  · exact .dirs (.star (by decide) (.lit (by decide) (.lit (by decide) (.lit (by decide) (.lit (by decide) .nil)))))
  · refine ⟨by simp, fun pre post h => ?_⟩
    match pre with
    | [] => simp at h
    | [_] => simp at h; obtain ⟨rfl, rfl⟩ := h; simp
    | [_, _] => simp at h
    | [_, _, _] => simp at h; obtain ⟨rfl, rfl, rfl, rfl⟩ := h; simp
    | _ :: _ :: _ :: _ :: t =>
      exfalso
      have : '/' ∈ ['x', '.', 't', 'm', 'p'] := by
        simp at h
        rw [h.2.2.2.2]; simp
      simp at this
  · unfold GitMatch
    rw [if_pos (.inr (by decide))]
    refine .dirs (u := ['a', '/', 'b']) (s := ['x', '.', 't', 'm', 'p']) (.star (u := ['x']) (s := ['.', 't', 'm', 'p']) ?_ (by simp) ?_)
    · simp
    · exact .lit (by decide) (.lit (by decide) (.lit (by decide) (.lit (by decide) .nil)))

example : CoreOk false true true "build".toList ∧ Agreeing true "build".toList ∧ CoreOk true false false "important.log".toList ∧ Agreeing false "important.log".toList := by
  have e1 : "build".toList = ['b', 'u', 'i', 'l', 'd'] := rfl
  have e2 : "important.log".toList = ['i', 'm', 'p', 'o', 'r', 't', 'a', 'n', 't', '.', 'l', 'o', 'g'] := rfl
  rw [e1, e2]
  have key : ∀ l : List Char, (∀ c ∈ l, c ∉ ['\\', '*', '?', '[', '/']) → ∀ b, Aligned b l := by
    intro l
    induction l with
    | nil => intro _ b; exact .nil
    | cons c l ih => intro h b; exact .lit (h c (by simp)) (ih (fun d hd => h d (by simp [hd])) _)
  refine ⟨⟨by decide, ⟨'d', by decide, by decide, by decide⟩, by simp⟩, ⟨key _ (by decide) _, .inl rfl⟩,
    ⟨by decide, ⟨'g', by decide, by decide, by decide⟩, fun _ => ⟨'i', by decide, by decide, by decide, by simp⟩⟩, ⟨key _ (by decide) _, .inr (.inl ⟨by decide, by decide⟩)⟩⟩

/-! ## Where it fails -/

/-- A text without special characters. -/
def PlainText (l : List Char) : Prop := ∀ c ∈ l, c ∉ ['\\', '*', '?', '[']

theorem PlainText.tail {c : Char} {l : List Char} (h : PlainText (c :: l)) : PlainText l := fun d hd => h d (by simp [hd])

theorem PlainText.frag {l : List Char} (h : PlainText l) : fragX false l = true := by
  unfold fragX
  induction l with
  | nil => rfl
  | cons c l ih =>
    have hc := h c (by simp)
    simp only [List.mem_cons, not_or] at hc
    rw [List.length_cons, fragN.eq_def]
    dsimp only
    rw [if_neg hc.1, if_neg hc.2.2.2.1]
    exact ih h.tail

theorem PlainText.glob {sl : Bool} {l : List Char} (h : PlainText l) (s : List Char) : GlobX sl l s ↔ s = l := by
  induction l generalizing s with
  | nil => constructor
           · intro h; cases h; rfl
           · rintro rfl; exact .nil
  | cons c l ih =>
    have hc := h c (by simp)
    constructor
    · intro hg
      cases hg with
      | lit _ hg => rw [(ih h.tail _).mp hg]
      | _ => simp at hc
    · rintro rfl
      exact .lit hc ((ih h.tail _).mpr rfl)

theorem PlainText.wild {b : Bool} {l : List Char} (h : PlainText l) (s : List Char) : Wild b l s ↔ s = l := by
  induction l generalizing s b with
  | nil => constructor
           · intro h; cases h; rfl
           · rintro rfl; exact .nil
  | cons c l ih =>
    have hc := h c (by simp)
    constructor
    · intro hg
      cases hg with
      | lit _ hg => rw [(ih h.tail _).mp hg]
      | slash hg => rw [(ih h.tail _).mp hg]
      | _ => simp at hc
    · rintro rfl
      by_cases e : c = '/'
      · rw [e]; exact .slash ((ih h.tail _).mpr rfl)
      · refine .lit ?_ ((ih h.tail _).mpr rfl)
        intro hm
        rw [show ['\\', '*', '?', '[', '/'] = ['\\', '*', '?', '['] ++ ['/'] from rfl, List.mem_append, List.mem_singleton] at hm
        rcases hm with hm | hm
        · exact hc hm
        · exact e hm

theorem PlainText.git {l : List Char} (h : PlainText l) : GitMatch false l l := by
  unfold GitMatch
  split
  · exact (h.wild l).mpr rfl
  · rename_i hn
    exact ⟨[], l, .inl rfl, by simpa using hn, (h.wild l).mpr rfl⟩

/-- C109 is false of patterns with a slash in the middle: every such pattern of plain characters, as `doc/api`, matches in every subdirectory, as `x/doc/api`; to
Git it stands for one path. -/
theorem inner_slash_floats (E : Engine) (hE : E.Conforms) (core d : List Char) (hp : PlainText core) (hs : '/' ∈ core) (hn : '\n' ∉ core) (hd : '\n' ∉ d)
    (hlast : ∃ c, core.getLast? = some c ∧ c ≠ '/' ∧ isSpace c = false) (hfirst : ∃ c, core.head? = some c ∧ c ≠ '/' ∧ isSpace c = false ∧ c ≠ '!' ∧ c ≠ '#')
    (hlen : core.length ≤ 908) (ps : List Pattern) :
    ∃ f, addPattern E ps core = .ok (ps ++ [⟨false, false, f⟩]) ∧ f (d ++ '/' :: core) = true ∧ ¬ GitMatch false core (d ++ '/' :: core) := by
  obtain ⟨c0, g1, g2, g3, g4⟩ := hfirst
  have hok : CoreOk false false false core := ⟨hp.frag, hlast, fun _ => ⟨c0, g1, g2, g3, fun _ => g4⟩⟩
  have hr : render false false core false = core := by simp [render]
  obtain ⟨f, h1, h2⟩ := pattern_matches_glob_partial E hE false false false core hok (by simp) (by rw [hr]; exact hlen) ps
  rw [hr] at h1
  refine ⟨f, h1, (h2 _ ?_).mpr ⟨d ++ ['/'], core, [], by simp, .inr ⟨rfl, d, rfl⟩, (hp.glob _).mpr rfl, .inl rfl⟩, ?_⟩
  · simp [hn, hd]
  · unfold GitMatch
    rw [if_pos (.inr hs), hp.wild]
    intro e
    have := congrArg List.length e
    simp at this
    omega

/-- C109 is false of two asterisks inside a name: `a**b` matches `a/b`, to Git it is `a*b`. -/
theorem double_star_crosses (E : Engine) (hE : E.Conforms) : ∃ f, addPattern E [] "a**b".toList = .ok [⟨false, false, f⟩] ∧ f "a/b".toList = true ∧
    ¬ GitMatch false "a**b".toList "a/b".toList := by
  have e1 : "a**b".toList = ['a', '*', '*', 'b'] := rfl
  have e2 : "a/b".toList = ['a', '/', 'b'] := rfl
  rw [e1, e2]
  have hok : CoreOk false false false ['a', '*', '*', 'b'] :=
    ⟨by decide, ⟨'b', by decide, by decide, by decide⟩, fun _ => ⟨'a', by decide, by decide, by decide, fun _ => by decide⟩⟩
  obtain ⟨f, h1, h2⟩ := pattern_matches_glob_partial E hE false false false _ hok (by simp) (by decide) []
  refine ⟨f, h1, (h2 _ (by decide)).mpr ⟨[], ['a', '/', 'b'], [], rfl, .inl rfl, .lit (by decide) (.all (u := ['/']) (by decide) (.lit (by decide) .nil)), .inl rfl⟩, ?_⟩
  unfold GitMatch
  rw [if_neg (by decide)]
  rintro ⟨pre, name, h, hn, hw⟩
  cases hw with
  | lit _ hw =>
    rcases h with h | h
    · rw [← h] at hn; simp at hn
    · match pre with
      | [] => simp at h
      | [_] => simp at h
      | [_, _] => simp at h
      | _ :: _ :: _ :: t => simp at h

/-- C109 is false of blanks at the end of a line, which Git drops: a line of plain characters with blanks behind it does not match the path it names. -/
theorem trailing_blank_kept (E : Engine) (hE : E.Conforms) (core : List Char) (n : Nat) (hp : PlainText core) (hn : '\n' ∉ core)
    (hlast : ∃ c, core.getLast? = some c ∧ c ≠ '/' ∧ isSpace c = false) (hfirst : ∃ c, core.head? = some c ∧ c ≠ '/' ∧ isSpace c = false ∧ c ≠ '!' ∧ c ≠ '#')
    (hlen : core.length + (n + 1) ≤ 908) (ps : List Pattern) :
    ∃ f, addPattern E ps (core ++ List.replicate (n + 1) ' ') = .ok (ps ++ [⟨false, false, f⟩]) ∧ f core = false ∧ GitMatch false core core := by
  obtain ⟨c0, g1, g2, g3, g4⟩ := hfirst
  have hpb : PlainText (core ++ List.replicate (n + 1) ' ') := by
    intro c hc
    rcases List.mem_append.1 hc with hc | hc
    · exact hp c hc
    · rw [List.eq_of_mem_replicate hc]; decide
  have hr : render false false (core ++ List.replicate (n + 1) ' ') false = core ++ List.replicate (n + 1) ' ' := by simp [render]
  obtain ⟨f, h1, h2⟩ := pattern_matches_blank E hE false false false false (core ++ List.replicate (n + 1) ' ') hpb.frag
    ⟨' ', by rw [List.replicate_succ', ← List.append_assoc, List.getLast?_concat], by decide⟩
    (fun _ => by
      obtain ⟨c, l1, l2⟩ := noSlashLast_of hlast
      refine ⟨c, ?_, l2⟩
      rw [List.reverse_append, List.reverse_replicate, List.dropWhile_append_of_pos]
      · exact l1
      · intro x hx; rw [List.eq_of_mem_replicate hx]; decide)
    (fun _ => ⟨c0, by rw [List.head?_append, g1]; rfl, g2, g3, fun _ => g4⟩) (by simp) (by rw [hr]; simp; omega) ps
  rw [hr] at h1
  refine ⟨f, h1, ?_, hp.git⟩
  rw [← Bool.not_eq_true, h2 _ hn]
  rintro ⟨pre, mid, post, e, _, hg, _⟩
  rw [hpb.glob] at hg
  have := congrArg List.length e
  rw [hg] at this
  simp at this
  omega

/-- C109 is false of blanks at the beginning of a line, which Git takes for part of the name: they are dropped. -/
theorem leading_blank_dropped (E : Engine) (ps : List Pattern) (core : List Char) (n : Nat) (hp : PlainText core) :
    addPattern E ps (List.replicate (n + 1) ' ' ++ core) = addPattern E ps core ∧ ¬ GitMatch false (List.replicate (n + 1) ' ' ++ core) core := by
  constructor
  · unfold addPattern
    rw [List.dropWhile_append_of_pos (by intro x hx; rw [List.eq_of_mem_replicate hx]; decide)]
  · have hpb : PlainText (List.replicate (n + 1) ' ' ++ core) := by
      intro c hc
      rcases List.mem_append.1 hc with hc | hc
      · rw [List.eq_of_mem_replicate hc]; decide
      · exact hp c hc
    unfold GitMatch
    split
    · rw [hpb.wild]
      intro e
      have := congrArg List.length e
      simp at this
    · rintro ⟨pre, name, h, -, hw⟩
      rw [hpb.wild] at hw
      subst hw
      rcases h with h | h
      · have := congrArg List.length h
        simp at this
      · have := congrArg List.length h
        simp at this
        omega

/-! ## Patterns that name nothing -/

/-- A line that consists of marks only matches no path: `!` is no directory pattern, `/` and `!/` are. -/
theorem bare_marks (E : Engine) (hE : E.Conforms) (ps : List Pattern) :
    ∃ f g h, addPattern E ps ['!'] = .ok (ps ++ [⟨true, false, f⟩]) ∧ addPattern E ps ['/'] = .ok (ps ++ [⟨false, true, g⟩]) ∧
      addPattern E ps ['!', '/'] = .ok (ps ++ [⟨true, true, h⟩]) ∧
      ∀ rel, '\n' ∉ rel → Clean rel → f rel = false ∧ g rel = false ∧ h rel = false := by
  obtain ⟨l, hl, hp1⟩ := parse_text (.nil : View false []) false false true
  obtain ⟨f, hf, hfs⟩ := hE.runs _ _ hp1
  obtain ⟨l2, hl2, hp2⟩ := parse_text (.nil : View false []) true true false
  obtain ⟨g, hg, hgs⟩ := hE.runs _ _ hp2
  obtain ⟨l3, hl3, hp3⟩ := parse_text (.nil : View false []) true true true
  obtain ⟨h, hh, hhs⟩ := hE.runs _ _ hp3
  refine ⟨f, g, h, addPattern_ok E ps '!' [] (by decide) (by decide) (by decide) f hf, addPattern_ok E ps '/' [] (by decide) (by decide) (by decide) g hg,
    addPattern_ok E ps '!' ['/'] (by decide) (by decide) (by decide) h hh, fun rel hn hr => ⟨?_, ?_, ?_⟩⟩
  · rw [← Bool.not_eq_true, hfs, search_iff hl _ _ _ hn]
    rintro ⟨pre, mid, post, e, h2, h3, h4⟩
    obtain rfl : post = [] := by simpa using h4
    cases h3
    rcases h2 with rfl | ⟨-, q, rfl⟩
    · exact hr.ne (by simpa using e)
    · exact hr.last (by rw [e]; simp)
  all_goals
    rw [← Bool.not_eq_true]
    first | rw [hgs, search_iff hl2 _ _ _ hn] | rw [hhs, search_iff hl3 _ _ _ hn]
    rintro ⟨pre, mid, post, e, h2, h3, h4⟩
    cases h3
    obtain rfl : pre = [] := by simpa using h2
    rcases h4 with rfl | ⟨-, q, rfl⟩
    · exact hr.ne (by simpa using e)
    · exact (hr.slash [] q (by simpa using e)).1 rfl

end Verif.Ignore
