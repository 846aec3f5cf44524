import Verif.Report.Disk

/-!
# When two reports tell the same (C105-C107)
-/

namespace Verif.Report

/-- Two lists of groups tell the same: each group of one is, up to the order inside it, a group of the other, and there are equally many. -/
structure SameSets {α : Type} (a b : List (List α)) : Prop where
  left : ∀ g ∈ a, ∃ h ∈ b, g.Perm h
  right : ∀ h ∈ b, ∃ g ∈ a, h.Perm g
  count : a.length = b.length

theorem SameSets.map {α β : Type} {a b : List (List α)} (h : SameSets a b) (f : α → β) : SameSets (a.map (·.map f)) (b.map (·.map f)) := by
  refine ⟨?_, ?_, by simp [h.count]⟩
  · intro g hg
    obtain ⟨g, hg', rfl⟩ := List.mem_map.mp hg
    clear hg
    have hg := hg'
    obtain ⟨k, hk, hp⟩ := h.left g hg
    exact ⟨_, List.mem_map_of_mem hk, hp.map f⟩
  · intro g hg
    obtain ⟨g, hg', rfl⟩ := List.mem_map.mp hg
    clear hg
    have hg := hg'
    obtain ⟨k, hk, hp⟩ := h.right g hg
    exact ⟨_, List.mem_map_of_mem hk, hp.map f⟩

theorem nodup_le {α : Type} [DecidableEq α] : ∀ (l m : List α), l.Nodup → (∀ s ∈ l, s ∈ m) → l.length ≤ m.length := by
  intro l
  induction l with
  | nil => intro m _ _; simp
  | cons a l ih =>
    intro m hn hs
    rw [List.nodup_cons] at hn
    have h1 : a ∈ m := hs a List.mem_cons_self
    have h2 := ih (m.erase a) hn.2 (by
      intro s h
      have hne : s ≠ a := by rintro rfl; exact hn.1 h
      exact (List.mem_erase_of_ne hne).mpr (hs s (List.mem_cons_of_mem _ h)))
    rw [List.length_erase_of_mem h1] at h2
    have := List.length_pos_of_mem h1
    simp only [List.length_cons]
    omega

variable {κ : Type} [DecidableEq κ]

/-- The contents of the groups. -/
def keys (key : FileEnt → κ) (gs : List (List FileEnt)) : List (Option κ) := gs.map (fun g => g.head?.map key)

theorem Exact.head {key : FileEnt → κ} {cands : List FileEnt} {gs : List (List FileEnt)} (h : Exact key cands gs) {g : List FileEnt} (hg : g ∈ gs) :
    ∃ f ∈ g, g.head?.map key = some (key f) ∧ ∀ x ∈ g, key x = key f := by
  obtain ⟨h2, f, hf, hp⟩ := h.whole g hg
  cases g with
  | nil => simp at h2
  | cons x g =>
    have hall : ∀ y ∈ x :: g, key y = key f := by
      intro y hy
      have := hp.subset hy
      rw [List.mem_filter] at this
      simpa using this.2
    refine ⟨x, List.mem_cons_self, rfl, fun y hy => ?_⟩
    rw [hall y hy, hall x List.mem_cons_self]

theorem Exact.nodup {key : FileEnt → κ} {cands : List FileEnt} {gs : List (List FileEnt)} (h : Exact key cands gs) : (keys key gs).Nodup := by
  unfold keys List.Nodup
  rw [List.pairwise_map]
  refine List.Pairwise.imp_of_mem ?_ h.once
  intro a b ha hb hab
  obtain ⟨f, hf, e1, -⟩ := h.head ha
  obtain ⟨g, hg, e2, -⟩ := h.head hb
  rw [e1, e2]
  intro he
  injection he with he
  exact hab f hf g hg he

theorem Exact.keys_sub {key : FileEnt → κ} {cands : List FileEnt} {gs gs' : List (List FileEnt)} (h : Exact key cands gs) (h' : Exact key cands gs') :
    ∀ k ∈ keys key gs, k ∈ keys key gs' := by
  intro k hk
  obtain ⟨g, hg, rfl⟩ := List.mem_map.mp hk
  obtain ⟨g', hg', hp⟩ := exact_cover h h' g hg
  obtain ⟨f, hf, e1, -⟩ := h.head hg
  obtain ⟨f', hf', e2, hall⟩ := h'.head hg'
  refine List.mem_map.mpr ⟨g', hg', ?_⟩
  rw [e1, e2, hall f (hp.subset hf)]

/-- Two exact reports of the same files tell the same. -/
theorem exact_same {key : FileEnt → κ} {cands : List FileEnt} {gs gs' : List (List FileEnt)} (h : Exact key cands gs) (h' : Exact key cands gs') :
    SameSets gs gs' := by
  refine ⟨exact_cover h h', exact_cover h' h, ?_⟩
  have h1 := nodup_le _ _ h.nodup (h.keys_sub h')
  have h2 := nodup_le _ _ h'.nodup (h'.keys_sub h)
  simp only [keys, List.length_map] at h1 h2
  omega

/-- The order of the files does not matter to what is exact. -/
theorem exact_perm {key : FileEnt → κ} {cands cands' : List FileEnt} {gs : List (List FileEnt)} (h : Exact key cands gs) (hp : cands.Perm cands') :
    Exact key cands' gs := by
  refine ⟨?_, ?_, h.once⟩
  · intro g hg
    obtain ⟨h2, f, hf, hq⟩ := h.whole g hg
    exact ⟨h2, f, hp.subset hf, hq.trans (hp.filter _)⟩
  · intro f hf h2
    exact h.all f (hp.symm.subset hf) (by rw [(hp.filter _).length_eq]; exact h2)

/-- Nor does anything about the files but their contents. -/
theorem exact_map {key key' : FileEnt → κ} {φ : FileEnt → FileEnt} {cands : List FileEnt} {gs : List (List FileEnt)} (h : Exact key cands gs)
    (hk : ∀ f ∈ cands, key' (φ f) = key f) : Exact key' (cands.map φ) (gs.map (·.map φ)) := by
  have hfil : ∀ f ∈ cands, (cands.map φ).filter (fun x => key' x = key' (φ f)) = (cands.filter (fun x => key x = key f)).map φ := by
    intro f hf
    rw [List.filter_map]
    congr 1
    refine List.filter_congr ?_
    intro x hx
    simp only [Function.comp, hk x hx, hk f hf]
  have hmem : ∀ g ∈ gs, ∀ x ∈ g, x ∈ cands := by
    intro g hg x hx
    obtain ⟨-, f, -, hp⟩ := h.whole g hg
    exact (List.mem_filter.mp (hp.subset hx)).1
  refine ⟨?_, ?_, ?_⟩
  · intro g hg
    obtain ⟨g, hg', rfl⟩ := List.mem_map.mp hg
    clear hg
    have hg := hg'
    obtain ⟨h2, f, hf, hp⟩ := h.whole g hg
    refine ⟨by simpa using h2, φ f, List.mem_map_of_mem hf, ?_⟩
    rw [hfil f hf]
    exact hp.map φ
  · intro f hf h2
    obtain ⟨f, hf', rfl⟩ := List.mem_map.mp hf
    clear hf
    have hf := hf'
    rw [hfil f hf, List.length_map] at h2
    obtain ⟨g, hg, hfg⟩ := h.all f hf h2
    exact ⟨_, List.mem_map_of_mem hg, List.mem_map_of_mem hfg⟩
  · rw [List.pairwise_map]
    refine List.Pairwise.imp_of_mem ?_ h.once
    intro a b ha hb hab x hx y hy
    obtain ⟨x, hx', rfl⟩ := List.mem_map.mp hx
    clear hx
    have hx := hx'
    obtain ⟨y, hy', rfl⟩ := List.mem_map.mp hy
    clear hy
    have hy := hy'
    rw [hk x (hmem a ha x hx), hk y (hmem b hb y hy)]
    exact hab x hx y hy

/-- Files that have nothing in common can be reported together or apart. -/
theorem exact_append {key : FileEnt → κ} {as bs : List FileEnt} {gs hs : List (List FileEnt)} (h : Exact key as gs) (h' : Exact key bs hs)
    (hd : ∀ a ∈ as, ∀ b ∈ bs, key a ≠ key b) : Exact key (as ++ bs) (gs ++ hs) := by
  have hl : ∀ f ∈ as, (as ++ bs).filter (fun x => key x = key f) = as.filter (fun x => key x = key f) := by
    intro f hf
    rw [List.filter_append, List.append_right_eq_self, List.filter_eq_nil_iff]
    intro x hx
    simpa using fun e => hd f hf x hx e.symm
  have hr : ∀ f ∈ bs, (as ++ bs).filter (fun x => key x = key f) = bs.filter (fun x => key x = key f) := by
    intro f hf
    rw [List.filter_append, List.append_left_eq_self, List.filter_eq_nil_iff]
    intro x hx
    simpa using hd x hx f hf
  have hmem : ∀ {l : List FileEnt} {gs : List (List FileEnt)}, Exact key l gs → ∀ g ∈ gs, ∀ x ∈ g, x ∈ l := by
    intro l gs h g hg x hx
    obtain ⟨-, f, -, hp⟩ := h.whole g hg
    exact (List.mem_filter.mp (hp.subset hx)).1
  refine ⟨?_, ?_, ?_⟩
  · intro g hg
    rcases List.mem_append.mp hg with hg | hg
    · obtain ⟨h2, f, hf, hp⟩ := h.whole g hg
      exact ⟨h2, f, List.mem_append_left _ hf, by rw [hl f hf]; exact hp⟩
    · obtain ⟨h2, f, hf, hp⟩ := h'.whole g hg
      exact ⟨h2, f, List.mem_append_right _ hf, by rw [hr f hf]; exact hp⟩
  · intro f hf h2
    rcases List.mem_append.mp hf with hf | hf
    · rw [hl f hf] at h2
      obtain ⟨g, hg, hfg⟩ := h.all f hf h2
      exact ⟨g, List.mem_append_left _ hg, hfg⟩
    · rw [hr f hf] at h2
      obtain ⟨g, hg, hfg⟩ := h'.all f hf h2
      exact ⟨g, List.mem_append_right _ hg, hfg⟩
  · rw [List.pairwise_append]
    exact ⟨h.once, h'.once, fun a ha b hb x hx y hy => hd x (hmem h a ha x hx) y (hmem h' b hb y hy)⟩

end Verif.Report
