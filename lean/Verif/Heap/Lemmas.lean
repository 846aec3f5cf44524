import Verif.Heap.Model

/-! Helper lemmas for the heap model. -/

namespace Verif.Heap

/-- The comparator is a total preorder (`cmp a b < 0` reads "a is smaller than b"). -/
structure IsOrder (cmp : α → α → Int) : Prop where
  anti : ∀ a b, cmp a b < 0 ↔ 0 < cmp b a
  trans : ∀ a b c, cmp a b ≤ 0 → cmp b c ≤ 0 → cmp a c ≤ 0

/-- The first cells of the array hold exactly `t`. -/
def Rep (cells : List (Option α)) (t : List α) : Prop :=
  t.length ≤ cells.length ∧ ∀ i, i < t.length → cells[i]? = some t[i]?

/-- Heap order: no child exceeds its parent. -/
def HeapOrd (cmp : α → α → Int) (t : List α) : Prop :=
  ∀ j a b, 0 < j → t[(j - 1) / 2]? = some a → t[j]? = some b → cmp b a ≤ 0

/-- Heap order except possibly at the edge above `i`. -/
def UpInv (cmp : α → α → Int) (t : List α) (i : Nat) : Prop :=
  (∀ j a b, 0 < j → j ≠ i → t[(j - 1) / 2]? = some a → t[j]? = some b → cmp b a ≤ 0) ∧
  (∀ j a b, 0 < j → 0 < i → (j - 1) / 2 = i → t[(i - 1) / 2]? = some a → t[j]? = some b → cmp b a ≤ 0)

/-- Heap order except possibly at the edges below `i`. -/
def DownInv (cmp : α → α → Int) (t : List α) (i : Nat) : Prop :=
  (∀ j a b, 0 < j → (j - 1) / 2 ≠ i → t[(j - 1) / 2]? = some a → t[j]? = some b → cmp b a ≤ 0) ∧
  (∀ j a b, 0 < j → 0 < i → (j - 1) / 2 = i → t[(i - 1) / 2]? = some a → t[j]? = some b → cmp b a ≤ 0)

theorem IsOrder.le_of_not_lt {cmp : α → α → Int} (h : IsOrder cmp) {a b : α} (hn : ¬ cmp a b < 0) :
    cmp b a ≤ 0 := by
  have := (h.anti a b); omega

theorem IsOrder.le_of_lt {cmp : α → α → Int} (_h : IsOrder cmp) {a b : α} (hn : cmp a b < 0) :
    cmp a b ≤ 0 := by omega

theorem IsOrder.refl {cmp : α → α → Int} (h : IsOrder cmp) (a : α) : cmp a a ≤ 0 := by
  have := (h.anti a a); omega

theorem rd_rep {cells : List (Option α)} {t : List α} (h : Rep cells t) {i : Nat} (hi : i < t.length) :
    rd cells i = .ok t[i] := by
  have := h.2 i hi
  simp [rd, this, List.getElem?_eq_getElem hi]

theorem wr_rep {cells : List (Option α)} {t : List α} (h : Rep cells t) {i : Nat} (hi : i < t.length)
    (v : α) : wr cells i (some v) = .ok (cells.set i (some v)) ∧ Rep (cells.set i (some v)) (t.set i v) := by
  have hl := h.1
  refine ⟨by simp [wr]; omega, ?_, ?_⟩
  · simpa using hl
  · intro j hj
    simp at hj
    have := h.2 j hj
    rw [List.getElem?_set, List.getElem?_set]
    split <;> simp_all <;> omega

theorem swap_perm {t : List α} {i j : Nat} (hi : i < t.length) (hj : j < t.length) :
    ((t.set i t[j]).set j t[i]).Perm t := List.set_set_perm hi hj

theorem siftUp_spec (cmp : α → α → Int) :
    ∀ (fuel : Nat) (cells : List (Option α)) (t : List α) (i : Nat),
      Rep cells t → i < t.length → i < fuel →
      ∃ cells' t', siftUp cmp fuel cells i = .ok cells' ∧ Rep cells' t' ∧ t'.Perm t ∧
        cells'.length = cells.length ∧
        (IsOrder cmp → UpInv cmp t i → HeapOrd cmp t') := by
  intro fuel
  induction fuel with
  | zero => intro _ _ _ _ _ h; omega
  | succ fuel ih =>
    intro cells t i hrep hi hf
    unfold siftUp
    by_cases h0 : 0 < i
    · have hp : parent i < t.length := by unfold parent; split <;> omega
      have hpe : parent i = (i - 1) / 2 := by unfold parent; split <;> omega
      simp only [h0, if_true, rd_rep hrep hp, rd_rep hrep hi, Res.ok_bind]
      by_cases hc : cmp t[parent i] t[i] < 0
      · simp only [hc, if_true]
        obtain ⟨e1, r1⟩ := wr_rep hrep hp t[i]
        have hi' : i < (t.set (parent i) t[i]).length := by simpa using hi
        obtain ⟨e2, r2⟩ := wr_rep r1 hi' t[parent i]
        simp only [e1, e2, Res.ok_bind]
        obtain ⟨cells', t', e, hr, hperm, hlen, hord⟩ :=
          ih _ _ (parent i) r2 (by simpa using hp) (by omega)
        refine ⟨cells', t', e, hr, hperm.trans (swap_perm hp hi), by simpa using hlen, ?_⟩
        intro ho hu
        apply hord ho
        obtain ⟨hu1, hu2⟩ := hu
        have key : ∀ k, ((t.set (parent i) t[i]).set i t[parent i])[k]? =
            if k = i then some t[parent i] else if k = parent i then some t[i] else t[k]? := by
          intro k
          rw [List.getElem?_set, List.getElem?_set]
          simp only [List.length_set, hi, hp, if_true]
          by_cases h1 : i = k
          · simp [h1]
          · by_cases h2 : parent i = k
            · simp [h1, h2, Ne.symm h1]
            · simp [h1, h2, Ne.symm h1, Ne.symm h2]
        have gp : t[parent i]? = some t[parent i] := List.getElem?_eq_getElem hp
        have gi : t[i]? = some t[i] := List.getElem?_eq_getElem hi
        have hle := ho.le_of_lt hc
        rw [← hpe] at hu2
        refine ⟨?_, ?_⟩
        · intro j a b hj hne
          rw [key, key]
          by_cases hji : j = i
          · subst hji
            rw [← hpe]
            have : parent j ≠ j := by omega
            simp [this]
            intro h1 h2; subst h1; subst h2; exact hle
          · by_cases hpj : (j - 1) / 2 = i
            · have hj2 : j ≠ parent i := by omega
              simp [hji, hpj, hj2]
              intro h1 h2
              exact hu2 j a b hj h0 hpj (by rw [gp, h1]) h2
            · by_cases hpj2 : (j - 1) / 2 = parent i
              · simp [hji, hpj2, hne]
                have hx : parent i ≠ i := by omega
                simp [hx]
                intro h1 h2
                subst h1
                have := hu1 j t[parent i] b hj hji (by rw [hpj2, gp]) h2
                exact ho.trans _ _ _ this hle
              · simp [hji, hpj, hpj2, hne]
                exact hu1 j a b hj hji
        · intro j a b hj hpi hpj
          rw [key, key]
          have hx1 : (parent i - 1) / 2 ≠ i := by omega
          have hx2 : (parent i - 1) / 2 ≠ parent i := by omega
          simp only [hx1, hx2, if_false]
          intro h1
          by_cases hji : j = i
          · simp only [hji, if_true]
            intro h2
            injection h2 with h2
            subst h2
            exact hu1 (parent i) a _ hpi (by omega) h1 gp
          · have hj2 : j ≠ parent i := by omega
            simp only [hji, hj2, if_false]
            intro h2
            have h3 := hu1 j t[parent i] b hj hji (by rw [hpj, gp]) h2
            exact ho.trans _ _ _ h3 (hu1 (parent i) a _ hpi (by omega) h1 gp)
      · simp only [hc, if_false]
        refine ⟨cells, t, rfl, hrep, .refl _, rfl, ?_⟩
        intro ho hu j a b hj h1 h2
        by_cases hji : j = i
        · subst hji
          rw [← hpe, List.getElem?_eq_getElem hp] at h1
          rw [List.getElem?_eq_getElem hi] at h2
          injection h1 with h1; injection h2 with h2
          subst h1; subst h2
          exact ho.le_of_not_lt hc
        · exact hu.1 j a b hj hji h1 h2
    · simp only [h0, if_false]
      refine ⟨cells, t, rfl, hrep, .refl _, rfl, ?_⟩
      intro ho hu j a b hj h1 h2
      exact hu.1 j a b hj (by omega) h1 h2

theorem pick_spec (cmp : α → α → Int) {cells : List (Option α)} {t : List α} {i : Nat}
    (hrep : Rep cells t) (hi : i < t.length) (hsz : t.length ≤ 2 ^ 31) :
    ∃ m, ∃ hm : m < t.length, pick cmp cells t.length i = .ok m ∧
      (m = i ∨ m = 2 * i + 1 ∨ m = 2 * i + 2) ∧
      (IsOrder cmp → (m ≠ i → cmp t[i] t[m] ≤ 0) ∧
        ∀ j, j = 2 * i + 1 ∨ j = 2 * i + 2 → ∀ b, t[j]? = some b → cmp b t[m] ≤ 0) := by
  have hl : left i = 2 * i + 1 := by unfold left u32; omega
  unfold pick
  rw [hl]
  by_cases h1 : 2 * i + 1 < t.length
  · have hr : right i = 2 * i + 2 := by unfold right u32; omega
    rw [hr]
    simp only [h1, if_true, rd_rep hrep h1, rd_rep hrep hi, Res.ok_bind]
    by_cases hc : cmp t[2 * i + 1] t[i] > 0
    · simp only [hc, if_true]
      by_cases h2 : 2 * i + 2 < t.length
      · simp only [h2, if_true, rd_rep hrep h2, rd_rep hrep h1, Res.ok_bind]
        by_cases hc2 : cmp t[2 * i + 2] t[2 * i + 1] > 0
        · simp only [hc2, if_true]
          refine ⟨_, h2, rfl, by simp, fun ho => ⟨fun _ => ?_, ?_⟩⟩
          · exact ho.trans _ _ _ (ho.le_of_lt ((ho.anti _ _).2 hc)) (ho.le_of_lt ((ho.anti _ _).2 hc2))
          · intro j hj b hb
            rcases hj with rfl | rfl
            · rw [List.getElem?_eq_getElem h1] at hb; injection hb with hb; subst hb
              exact ho.le_of_lt ((ho.anti _ _).2 hc2)
            · rw [List.getElem?_eq_getElem h2] at hb; injection hb with hb; subst hb
              exact ho.refl _
        · simp only [hc2, if_false]
          refine ⟨_, h1, rfl, by simp, fun ho => ⟨fun _ => ?_, ?_⟩⟩
          · exact ho.le_of_lt ((ho.anti _ _).2 hc)
          · intro j hj b hb
            rcases hj with rfl | rfl
            · rw [List.getElem?_eq_getElem h1] at hb; injection hb with hb; subst hb
              exact ho.refl _
            · rw [List.getElem?_eq_getElem h2] at hb; injection hb with hb; subst hb
              omega
      · simp only [h2, if_false]
        refine ⟨_, h1, rfl, by simp, fun ho => ⟨fun _ => ?_, ?_⟩⟩
        · exact ho.le_of_lt ((ho.anti _ _).2 hc)
        · intro j hj b hb
          rcases hj with rfl | rfl
          · rw [List.getElem?_eq_getElem h1] at hb; injection hb with hb; subst hb
            exact ho.refl _
          · rw [List.getElem?_eq_none (by omega)] at hb; cases hb
    · simp only [hc, if_false]
      by_cases h2 : 2 * i + 2 < t.length
      · simp only [h2, if_true, rd_rep hrep h2, rd_rep hrep hi, Res.ok_bind]
        by_cases hc2 : cmp t[2 * i + 2] t[i] > 0
        · simp only [hc2, if_true]
          refine ⟨_, h2, rfl, by simp, fun ho => ⟨fun _ => ?_, ?_⟩⟩
          · exact ho.le_of_lt ((ho.anti _ _).2 hc2)
          · intro j hj b hb
            rcases hj with rfl | rfl
            · rw [List.getElem?_eq_getElem h1] at hb; injection hb with hb; subst hb
              exact ho.trans _ _ _ (by omega : cmp t[2 * i + 1] t[i] ≤ 0) (ho.le_of_lt ((ho.anti _ _).2 hc2))
            · rw [List.getElem?_eq_getElem h2] at hb; injection hb with hb; subst hb
              exact ho.refl _
        · simp only [hc2, if_false]
          refine ⟨_, hi, rfl, by simp, fun ho => ⟨fun h => absurd rfl h, ?_⟩⟩
          intro j hj b hb
          rcases hj with rfl | rfl
          · rw [List.getElem?_eq_getElem h1] at hb; injection hb with hb; subst hb; omega
          · rw [List.getElem?_eq_getElem h2] at hb; injection hb with hb; subst hb; omega
      · simp only [h2, if_false]
        refine ⟨_, hi, rfl, by simp, fun ho => ⟨fun h => absurd rfl h, ?_⟩⟩
        intro j hj b hb
        rcases hj with rfl | rfl
        · rw [List.getElem?_eq_getElem h1] at hb; injection hb with hb; subst hb; omega
        · rw [List.getElem?_eq_none (by omega)] at hb; cases hb
  · simp only [h1, if_false]
    refine ⟨_, hi, rfl, by simp, fun ho => ⟨fun h => absurd rfl h, ?_⟩⟩
    intro j hj b hb
    rw [List.getElem?_eq_none (by omega)] at hb; cases hb

theorem siftDown_spec (cmp : α → α → Int) :
    ∀ (fuel : Nat) (cells : List (Option α)) (t : List α) (i : Nat),
      Rep cells t → i < t.length → t.length ≤ 2 ^ 31 → t.length < fuel + i →
      ∃ cells' t', siftDown cmp t.length fuel cells i = .ok cells' ∧ Rep cells' t' ∧ t'.Perm t ∧
        cells'.length = cells.length ∧
        (IsOrder cmp → DownInv cmp t i → HeapOrd cmp t') := by
  intro fuel
  induction fuel with
  | zero => intro _ _ _ _ _ _ h; omega
  | succ fuel ih =>
    intro cells t i hrep hi hsz hf
    unfold siftDown
    obtain ⟨m, hm, ep, hmc, hpo⟩ := pick_spec cmp hrep hi hsz
    simp only [ep, Res.ok_bind]
    by_cases hne : m ≠ i
    · simp only [hne, if_true, ne_eq, not_false_eq_true, rd_rep hrep hm, rd_rep hrep hi, Res.ok_bind]
      obtain ⟨e1, r1⟩ := wr_rep hrep hm t[i]
      have hi' : i < (t.set m t[i]).length := by simpa using hi
      obtain ⟨e2, r2⟩ := wr_rep r1 hi' t[m]
      simp only [e1, e2, Res.ok_bind]
      have hlen : ((t.set m t[i]).set i t[m]).length = t.length := by simp
      obtain ⟨cells', t', e, hr, hperm, hlen', hord⟩ :=
        ih _ _ m r2 (by simpa using hm) (by simpa using hsz) (by rw [hlen]; omega)
      rw [hlen] at e
      refine ⟨cells', t', e, hr, hperm.trans (swap_perm hm hi), by simpa using hlen', ?_⟩
      intro ho hu
      apply hord ho
      obtain ⟨hp1, hp2⟩ := hpo ho
      have key : ∀ k, ((t.set m t[i]).set i t[m])[k]? =
          if k = i then some t[m] else if k = m then some t[i] else t[k]? := by
        intro k
        rw [List.getElem?_set, List.getElem?_set]
        simp only [List.length_set, hi, hm, if_true]
        by_cases h1 : i = k
        · simp [h1]
        · by_cases h2 : m = k
          · simp [h1, h2, Ne.symm h1]
          · simp [h1, h2, Ne.symm h1, Ne.symm h2]
      have gi : t[i]? = some t[i] := List.getElem?_eq_getElem hi
      have gm : t[m]? = some t[m] := List.getElem?_eq_getElem hm
      refine ⟨?_, ?_⟩
      · intro j a b hj hpj
        rw [key, key]
        simp only [hpj, if_false]
        by_cases hp : (j - 1) / 2 = i
        · have hji : j ≠ i := by omega
          simp only [hp, hji, if_true, if_false]
          intro h1; injection h1 with h1; subst h1
          by_cases hjm : j = m
          · simp only [hjm, if_true]
            intro h2; injection h2 with h2; subst h2
            exact hp1 hne
          · simp only [hjm, if_false]
            intro h2
            exact hp2 j (by omega) b h2
        · simp only [hp, if_false]
          intro h1
          by_cases hji : j = i
          · simp only [hji, if_true]
            intro h2; injection h2 with h2; subst h2
            have hmp : (m - 1) / 2 = i := by omega
            refine hu.2 m a _ (by omega) (by omega) hmp ?_ gm
            rw [← h1, hji]
          · have hjm : j ≠ m := by omega
            simp only [hji, hjm, if_false]
            intro h2
            exact hu.1 j a b hj hp h1 h2
      · intro j a b hj hmpos hpj
        have hmp : (m - 1) / 2 = i := by omega
        have hji : j ≠ i := by omega
        have hjm : j ≠ m := by omega
        rw [key, key, hmp]
        simp only [hji, hjm, if_true, if_false]
        intro h1; injection h1 with h1; subst h1
        intro h2
        exact hu.1 j _ b hj (by omega) (by rw [hpj, gm]) h2
    · have hmi : m = i := by omega
      subst hmi
      simp only [ne_eq, not_true_eq_false, if_false]
      refine ⟨cells, t, rfl, hrep, .refl _, rfl, ?_⟩
      intro ho hu j a b hj h1 h2
      obtain ⟨_, hp2⟩ := hpo ho
      by_cases hp : (j - 1) / 2 = m
      · rw [hp, List.getElem?_eq_getElem hi] at h1
        injection h1 with h1; subst h1
        exact hp2 j (by omega) b h2
      · exact hu.1 j a b hj hp h1 h2

/-- In a heap-ordered list the root is maximal. -/
theorem root_max {cmp : α → α → Int} (ho : IsOrder cmp) {t : List α} (h : HeapOrd cmp t) :
    ∀ (j : Nat) (r b : α), t[0]? = some r → t[j]? = some b → cmp b r ≤ 0 := by
  intro j
  induction j using Nat.strongRecOn with
  | ind j ih =>
    intro r b hr hb
    by_cases hj : j = 0
    · subst hj; rw [hr] at hb; injection hb with hb; subst hb; exact ho.refl _
    · have hjl : j < t.length := by
        rcases Nat.lt_or_ge j t.length with h | h
        · exact h
        · rw [List.getElem?_eq_none h] at hb; cases hb
      have hp : (j - 1) / 2 < t.length := by omega
      have gp := List.getElem?_eq_getElem hp
      exact ho.trans _ _ _ (h j _ b (by omega) gp hb) (ih ((j - 1) / 2) (by omega) r _ hr gp)

end Verif.Heap
