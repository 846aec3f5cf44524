import Verif.Cache.HonestProps
import Verif.Db.WearProps

/-!
# A small cache, changed again and again (C125)
-/

namespace Verif.Cache.Wear

open Verif.Page Verif.Db Verif.Cache

/-- Rounds of storing: begin, store records, commit. -/
def rounds (fuel pid tid : Nat) (c : Cache) : List (List (Bytes × Bytes)) → Res (List (List Status × Status) × Cache)
  | [] => .ok ([], c)
  | rs :: rest =>
    match beginWrite c with
    | none => .div
    | some (_, c) => do
      let a ← upserts c fuel rs
      let b ← commitWrite a.2 fuel none pid tid
      let r ← rounds fuel pid tid b.2 rest
      .ok ((a.1, b.1) :: r.1, r.2)

/-- The operations that storing records amounts to. -/
def asOps (rs : List (Bytes × Bytes)) : List KvOp := rs.map fun r => .put r.1 r.2

theorem upserts_steps {fuel : Nat} : ∀ {rs : List (Bytes × Bytes)} {c : Cache} {t t' : Txn} {sts : List Status}, c.txn = some t → steps c.env fuel t (asOps rs) = .ok (sts, t') →
    upserts c fuel rs = .ok (sts, { c with txn := some t' }) := by
  intro rs
  induction rs with
  | nil => intro c t t' sts ht e; cases e; rw [← ht]; rfl
  | cons r rs ih =>
    intro c t t' sts ht e
    obtain ⟨k, v⟩ := r
    unfold asOps at e
    rw [List.map_cons, steps] at e
    obtain ⟨a, e1, e⟩ := Res.bind_eq_ok.1 e
    obtain ⟨b, e2, e⟩ := Res.bind_eq_ok.1 e
    cases e
    rw [upserts]
    unfold upsert
    rw [ht]
    simp only []
    rw [show put c.env fuel t k v = .ok a from e1, Res.ok_bind, Res.ok_bind, ih (c := { c with txn := some a.2 }) rfl e2, Res.ok_bind]

theorem steps_writes {env : Env} {fuel : Nat} : ∀ {ops : List KvOp} {t : Txn} {r : List Status × Txn}, steps env fuel t ops = .ok r → r.2.rdonly = t.rdonly := by
  intro ops
  induction ops with
  | nil => intro t r e; cases e; rfl
  | cons op ops ih =>
    intro t r e
    rw [steps] at e
    obtain ⟨a, e1, e⟩ := Res.bind_eq_ok.1 e
    obtain ⟨b, e2, e⟩ := Res.bind_eq_ok.1 e
    cases e
    rw [ih e2]
    cases op with
    | put k v => exact putWith_inv (closed_rdonly env t.rdonly) (alloc_inv (closed_rdonly env t.rdonly) fuel) e1 rfl
    | del k => exact del_inv (closed_rdonly env t.rdonly) e1 rfl

theorem rounds_transactions {fuel pid tid : Nat} : ∀ {rss : List (List (Bytes × Bytes))} {c : Cache} {env : Env} {sts : List (List Status × Status)}, c.txn = none →
    transactions fuel c.env (rss.map asOps) = .ok (sts, env) → rounds fuel pid tid c rss = .ok (sts, { c with env := env, txn := none }) := by
  intro rss
  induction rss with
  | nil => intro c env sts ht e; cases e; rw [← ht]; rfl
  | cons rs rss ih =>
    intro c env sts ht e
    rw [List.map_cons, transactions] at e
    rw [rounds]
    unfold beginWrite
    cases hb : Db.beginWrite c.env with
    | none => rw [hb] at e; cases e
    | some x =>
      rw [hb] at e
      simp only [] at e ⊢
      obtain ⟨a, e1, e⟩ := Res.bind_eq_ok.1 e
      obtain ⟨b, e2, e⟩ := Res.bind_eq_ok.1 e
      obtain ⟨r, e3, e⟩ := Res.bind_eq_ok.1 e
      cases e
      rw [upserts_steps (c := { c with env := x.1, txn := some x.2 }) rfl e1, Res.ok_bind]
      unfold commitWrite
      simp only []
      have hro : a.2.rdonly = false := by
        rw [steps_writes e1]
        unfold Db.beginWrite at hb
        split at hb
        · cases hb
        · cases hb; rfl
      rw [hro]
      simp only [Bool.false_eq_true, if_false]
      rw [show commitWith (alloc x.1 fuel) none x.1 a.2 = .ok b from e2, Res.ok_bind, Res.ok_bind]
      rw [ih (c := ⟨b.2, none, c.visited⟩) rfl e3, Res.ok_bind]

theorem asOps_within {K : List Bytes} {rs : List (Bytes × Bytes)} (h : ∀ r ∈ rs, r.1 ∈ K ∧ r.2.length = entrySize) : Within K entrySize (asOps rs) := by
  constructor
  · intro k v hkv
    obtain ⟨r, hr, e⟩ := List.mem_map.1 hkv
    cases e
    exact ⟨(h r hr).1, Nat.le_of_eq (h r hr).2⟩
  · intro k hk
    obtain ⟨r, -, e⟩ := List.mem_map.1 hk
    cases e

theorem asOps_changes : ∀ (rs : List (Bytes × Bytes)) (m : KvMap) (b : Bool), rs ≠ [] ∨ b = true → (answers m b (asOps rs)).2.2 = true := by
  intro rs
  induction rs with
  | nil => intro m b h; rcases h with h | h; exact absurd rfl h; exact h
  | cons r rs ih =>
    intro m b _
    unfold asOps
    rw [List.map_cons, answers]
    split
    · rename_i h
      exact ih m b (.inr (by simp only [Bool.and_eq_true] at h; exact h.1))
    · exact ih _ true (.inr rfl)

theorem story_counts : ∀ {rss : List (List (Bytes × Bytes))} (m : KvMap), (∀ rs ∈ rss, rs ≠ []) → (story m (rss.map asOps)).2.2 = rss.length := by
  intro rss
  induction rss with
  | nil => intro m _; rfl
  | cons rs rss ih =>
    intro m h
    rw [List.map_cons, Db.Wear.story_cons]
    simp only [asOps_changes rs m false (.inl (h rs List.mem_cons_self)), if_true]
    rw [ih _ fun x hx => h x (List.mem_cons_of_mem _ hx)]
    rfl

theorem findLeaf_readers {env : Env} {rs : List Slot} {t : Txn} {k : Bytes} : ∀ (fuel n : Nat), findLeaf { env with readers := rs } t k fuel n = findLeaf env t k fuel n := by
  intro fuel
  induction fuel with
  | zero => intro n; rfl
  | succ fuel ih =>
    intro n
    rw [findLeaf, findLeaf]
    have : ({ env with readers := rs } : Env) = { env with readers := rs } := rfl
    simp only [ih]
    rfl

theorem get_readers {env : Env} {rs : List Slot} {t : Txn} {k : Bytes} {fuel : Nat} : Db.get { env with readers := rs } t fuel k = Db.get env t fuel k := by
  unfold Db.get
  rw [findLeaf_readers]

/-- **C125**, for the cache.  In a new cache for files whose records fit one page (46 bytes each and the path), records can be stored in up to 186 transactions; lookups then give what was stored.  (Missing: more
than that, where it is false.) -/
theorem small_cache_partial {mapPages : Nat} {env : Env} (hm : 4 ≤ mapPages) (hc : envCreate mapPages = .ok env) {K : List Bytes} (hK : (K.map fun k => 46 + k.length).sum ≤ 4078)
    {rss : List (List (Bytes × Bytes))} (hr : ∀ rs ∈ rss, ∀ r ∈ rs, r.1 ∈ K ∧ r.2.length = 40) (hn : rss.length ≤ 186) (hne : ∀ rs ∈ rss, rs ≠ []) (fuel pid tid : Nat) :
    ∃ c, rounds (fuel + 2) pid tid ⟨env, none, []⟩ rss = .ok ((story (fun _ => none) (rss.map asOps)).1, c) ∧
      ∀ pid' tid' c', beginRead c pid' tid' = (.success, c') → ∀ path, path.length < 65536 → ∀ v fuel',
        (lookup c' (fuel' + 1) path = .ok (.ok v) ↔ (story (fun _ => none) (rss.map asOps)).2.1 path = some v ∧ v.length = 40) := by
  have hK' : (K.map fun k => 6 + k.length + entrySize).sum ≤ 4078 := by
    rw [show (fun k : Bytes => 6 + k.length + entrySize) = fun k => 46 + k.length from funext fun k => by simp only [entrySize]; omega]; exact hK
  obtain ⟨env', e, hg⟩ := small_database_partial hm hc hK' (ts := rss.map asOps) (fun ops ho => by
    obtain ⟨rs, hrs, rfl⟩ := List.mem_map.1 ho
    exact asOps_within (hr rs hrs)) (by rw [story_counts _ hne]; exact hn) fuel
  refine ⟨_, rounds_transactions rfl e, ?_⟩
  intro pid' tid' c' hb path hp v fuel'
  unfold beginRead Db.beginRead at hb
  simp only [] at hb
  cases hreg : register ⟨pid', tid', (readTxn env').txnid⟩ env'.readers with
  | none => rw [hreg] at hb; cases hb
  | some rs =>
    rw [hreg] at hb
    cases hb
    unfold lookup
    simp only []
    have := hg path fuel' hp
    rw [get_readers] 
    rw [this, Res.ok_bind]
    unfold KvMap.answer
    cases h : (story (fun _ => none) (rss.map asOps)).2.1 path with
    | none => simp
    | some w =>
      simp only []
      by_cases hw : w.length = entrySize
      · rw [if_neg (by simpa using hw)]
        constructor
        · intro e; cases e; exact ⟨rfl, hw⟩
        · rintro ⟨e, -⟩; cases e; rfl
      · rw [if_pos hw]
        constructor
        · intro e; cases e
        · rintro ⟨e, h40⟩; cases e; exact absurd h40 hw

/-- **C125 is false beyond that**, for the cache: after the 187th transaction no lookup of a path that begins with a byte of 97 or more ends, and no absolute path is found. -/
theorem small_cache_ruined {mapPages : Nat} {env : Env} (hm : 4 ≤ mapPages) (hc : envCreate mapPages = .ok env) {K : List Bytes} (hK : (K.map fun k => 46 + k.length).sum ≤ 4078)
    {rss : List (List (Bytes × Bytes))} (hr : ∀ rs ∈ rss, ∀ r ∈ rs, r.1 ∈ K ∧ r.2.length = 40) (hn : rss.length = 187) (hne : ∀ rs ∈ rss, rs ≠ []) (fuel pid tid : Nat) :
    ∃ c, rounds (fuel + 2) pid tid ⟨env, none, []⟩ rss = .ok ((story (fun _ => none) (rss.map asOps)).1, c) ∧
      ∀ pid' tid' c', beginRead c pid' tid' = (.success, c') → ∀ b (path : Bytes) fuel', path.length < 65535 →
        (97 ≤ b.toNat → lookup c' fuel' (b :: path) = .div) ∧ (path.length ≠ 7 → lookup c' (fuel' + 2) (47 :: path) = .ok (.error .notfound)) := by
  have hK' : (K.map fun k => 6 + k.length + entrySize).sum ≤ 4078 := by
    rw [show (fun k : Bytes => 6 + k.length + entrySize) = fun k => 46 + k.length from funext fun k => by simp only [entrySize]; omega]; exact hK
  obtain ⟨ws, x, rfl⟩ : ∃ ws x, rss = ws ++ [x] := ⟨rss.dropLast, rss.getLast (by intro h; rw [h] at hn; cases hn), (List.dropLast_concat_getLast _).symm⟩
  rw [List.length_append, List.length_singleton] at hn
  obtain ⟨env', e, h1, h2, -⟩ := small_database_ruined hm hc hK' (ts := ws.map asOps) (ops := asOps x) (fun ops ho => by
    rw [show ws.map asOps ++ [asOps x] = (ws ++ [x]).map asOps by simp] at ho
    obtain ⟨rs, hrs, rfl⟩ := List.mem_map.1 ho
    exact asOps_within (hr rs hrs)) (by rw [story_counts _ fun rs h => hne rs (List.mem_append_left _ h)]; omega) (asOps_changes x _ false (.inl (hne x (by simp)))) fuel
  rw [show ws.map asOps ++ [asOps x] = (ws ++ [x]).map asOps by simp] at e
  refine ⟨_, rounds_transactions rfl e, ?_⟩
  intro pid' tid' c' hb b path fuel' hp
  unfold beginRead Db.beginRead at hb
  simp only [] at hb
  cases hreg : register ⟨pid', tid', (readTxn env').txnid⟩ env'.readers with
  | none => rw [hreg] at hb; cases hb
  | some rs =>
    rw [hreg] at hb
    cases hb
    unfold lookup
    simp only []
    constructor
    · intro hb
      rw [get_readers, h1 (b :: path) fuel' (by simp only [List.length_cons]; omega) (by
        refine List.le_of_lt ?_
        refine List.Lex.rel ?_
        exact UInt8.lt_iff_toNat_lt.2 (by exact hb))]
      rfl
    · intro h7
      rw [get_readers, h2 (47 :: path) fuel' (by simp only [List.length_cons]; omega) (List.Lex.rel (by decide)) (by simpa using h7)]
      rfl

/-- A cache of two files, one of which is new in every one of 187 runs. -/
example : ∃ rss : List (List (Bytes × Bytes)), rss.length = 187 ∧ (∀ rs ∈ rss, rs ≠ []) ∧
    (∀ rs ∈ rss, ∀ r ∈ rs, r.1 ∈ [[97, 47, 98], [97, 47, 99]] ∧ r.2.length = 40) ∧ (([[97, 47, 98], [97, 47, 99]] : List Bytes).map fun k => 46 + k.length).sum ≤ 4078 :=
  ⟨List.replicate 187 [([97, 47, 98], List.replicate 40 0)], List.length_replicate, fun rs h => by rw [List.eq_of_mem_replicate h]; simp,
    fun rs h r hr => by rw [List.eq_of_mem_replicate h] at hr; simp only [List.mem_singleton] at hr; subst hr; decide, by decide⟩

end Verif.Cache.Wear
