import Verif.Model.Index
import Verif.Lemmas.BMap
import Mathlib.Data.List.Perm.Basic

/-! # Lemmas about index loading -/

namespace Backpak

variable {Id : Type} [LinearOrder Id]

namespace Index

theorem get?_appendMap {K V : Type} [LinearOrder K] (a b : BMap K V) (ha : BMap.Sorted a)
    (hb : (BMap.keys b).Nodup) (k : K) :
    BMap.get? (appendMap a b) k = (BMap.get? b k).or (BMap.get? a k) := by
  unfold appendMap
  induction b generalizing a with
  | nil => simp
  | cons e b ih =>
    obtain ⟨k', v⟩ := e
    simp only [BMap.keys, List.map_cons, List.nodup_cons] at hb
    rw [List.foldl_cons, ih _ (BMap.sorted_insert ha _ _) hb.2, BMap.get?_insert ha, BMap.get?_cons]
    by_cases h : k' = k
    · subst h
      rw [BMap.get?_eq_none_iff.mpr hb.1]; simp
    · simp [h]

theorem sorted_appendMap {K V : Type} [LinearOrder K] (a b : BMap K V) (ha : BMap.Sorted a) :
    BMap.Sorted (appendMap a b) := BMap.sorted_foldl_insert b a ha

theorem keys_appendMap {K V : Type} [LinearOrder K] (a b : BMap K V) (k : K) :
    k ∈ BMap.keys (appendMap a b) ↔ k ∈ BMap.keys a ∨ k ∈ BMap.keys b :=
  BMap.keys_foldl_insert b a k

theorem mem_appendMap {K V : Type} [LinearOrder K] {a b : BMap K V} {k : K} {v : V}
    (h : (k, v) ∈ appendMap a b) : (k, v) ∈ a ∨ (k, v) ∈ b := by
  unfold appendMap at h
  induction b generalizing a with
  | nil => exact .inl h
  | cons e b ih =>
    rw [List.foldl_cons] at h
    rcases ih h with h | h
    · rcases BMap.mem_insert_of h with ⟨rfl, rfl⟩ | h
      · exact .inr (by simp)
      · exact .inl h
    · exact .inr (by simp [h])

/-! ### Erasing many keys -/

theorem mem_eraseAll {K V : Type} [LinearOrder K] (l : List K) (m : BMap K V) (k : K) (v : V) :
    (k, v) ∈ l.foldl (fun m i => BMap.erase i m) m ↔ k ∉ l ∧ (k, v) ∈ m := by
  induction l generalizing m with
  | nil => simp
  | cons i l ih =>
    rw [List.foldl_cons, ih, BMap.mem_erase_iff]
    simp only [List.mem_cons, not_or]
    tauto

/-! ### Folding inserts into a set -/

theorem mem_insertAll {K : Type} [LinearOrder K] (l : List K) (s : BSet K) (k : K) :
    k ∈ l.foldl (fun s i => BSet.insert i s) s ↔ k ∈ s ∨ k ∈ l := by
  induction l generalizing s with
  | nil => simp
  | cons i l ih => rw [List.foldl_cons, ih, BSet.mem_insert]; simp only [List.mem_cons]; tauto

theorem sorted_insertAll {K : Type} [LinearOrder K] (l : List K) (s : BSet K) (h : BSet.Sorted s) :
    BSet.Sorted (l.foldl (fun s i => BSet.insert i s) s) := by
  induction l generalizing s with
  | nil => exact h
  | cons i l ih => exact ih _ (BSet.sorted_insert h i)

/-! ### The loads -/

structure LoadedOk (files : List (Id × Index Id)) (r : Loaded Id) : Prop where
  sup : ∀ i, i ∈ r.superseded ↔ ∃ j x, (j, x) ∈ files ∧ i ∈ x.supersedes
  ssort : BSet.Sorted r.superseded
  lsort : BMap.Sorted r.loaded
  loaded : ∀ i ps, (i, ps) ∈ r.loaded ↔ ∃ x, (i, x) ∈ files ∧ x.packs = ps

theorem loadAll_ok (files : List (Id × Index Id)) (done : List (Id × Index Id)) (r : Loaded Id)
    (hr : LoadedOk done r) (hn : ((done ++ files).map Prod.fst).Nodup) :
    ∃ r', loadAll r (files.map (fun e => (e.1, .ok e.2))) = .ok r' ∧ LoadedOk (done ++ files) r' := by
  induction files generalizing done r with
  | nil => exact ⟨r, rfl, by simpa using hr⟩
  | cons e files ih =>
    obtain ⟨id, x⟩ := e
    have hnot : id ∉ done.map Prod.fst := by
      intro h
      rw [List.map_append, List.nodup_append] at hn
      exact hn.2.2 id h id (by simp) rfl
    have hg : (r.loaded.get? id).isSome = false := by
      rw [Bool.eq_false_iff]
      intro h
      obtain ⟨ps, hps⟩ := Option.isSome_iff_exists.mp h
      obtain ⟨y, hy, _⟩ := (hr.loaded id ps).mp (BMap.mem_of_get? hps)
      exact hnot (List.mem_map.mpr ⟨_, hy, rfl⟩)
    have hnk : id ∉ BMap.keys r.loaded := by
      intro h
      rw [← BMap.get?_isSome_iff, hg] at h
      cases h
    simp only [List.map_cons, loadAll, loadOne, hg]
    have := ih (done ++ [(id, x)])
      ⟨x.supersedes.foldl (fun s i => BSet.insert i s) r.superseded, BMap.insert id x.packs r.loaded⟩
      ?_ (by simpa using hn)
    · simpa using this
    · refine ⟨?_, sorted_insertAll _ _ hr.ssort, BMap.sorted_insert hr.lsort _ _, ?_⟩
      · intro i
        simp only [mem_insertAll, hr.sup, List.mem_append, List.mem_singleton, Prod.mk.injEq]
        constructor
        · rintro (⟨j, y, h1, h2⟩ | h)
          · exact ⟨j, y, .inl h1, h2⟩
          · exact ⟨id, x, .inr ⟨rfl, rfl⟩, h⟩
        · rintro ⟨j, y, h1 | ⟨rfl, rfl⟩, h2⟩
          · exact .inl ⟨j, y, h1, h2⟩
          · exact .inr h2
      · intro i ps
        simp only [BMap.mem_insert_iff hr.lsort, hr.loaded, List.mem_append, List.mem_singleton,
          Prod.mk.injEq]
        constructor
        · rintro (⟨rfl, rfl⟩ | ⟨_, y, h1, h2⟩)
          · exact ⟨x, .inr ⟨rfl, rfl⟩, rfl⟩
          · exact ⟨y, .inl h1, h2⟩
        · rintro ⟨y, h1 | ⟨rfl, rfl⟩, h2⟩
          · refine .inr ⟨?_, y, h1, h2⟩
            rintro rfl
            exact hnot (List.mem_map.mpr ⟨_, h1, rfl⟩)
          · exact .inl ⟨rfl, h2.symm⟩

theorem loadAll_sound (l : List (Id × Res (Index Id))) (done : List (Id × Index Id)) (r r' : Loaded Id)
    (hr : LoadedOk done r) (hd : (done.map Prod.fst).Nodup) (h : loadAll r l = .ok r') :
    ∃ files : List (Id × Index Id), l = files.map (fun e => (e.1, .ok e.2)) ∧
      ((done ++ files).map Prod.fst).Nodup := by
  induction l generalizing done r with
  | nil => exact ⟨[], rfl, by simpa using hd⟩
  | cons e l ih =>
    obtain ⟨id, x⟩ := e
    cases x with
    | error f => simp [loadAll] at h
    | ok x =>
      simp only [loadAll, loadOne] at h
      split at h
      · simp at h
      · rename_i r1 hr1
        split at hr1
        · simp at hr1
        · rename_i hg
          have hnot : id ∉ done.map Prod.fst := by
            intro hm
            obtain ⟨⟨i, y⟩, hy, rfl⟩ := List.mem_map.mp hm
            have := (hr.loaded i y.packs).mpr ⟨y, hy, rfl⟩
            apply hg
            rw [(BMap.get?_eq_some_iff hr.lsort).mpr this]; rfl
          have hn : ((done ++ [(id, x)]).map Prod.fst).Nodup := by
            rw [List.map_append, List.nodup_append]
            refine ⟨hd, by simp, ?_⟩
            intro a ha b hb
            simp at hb
            subst hb
            rintro rfl
            exact hnot ha
          obtain ⟨r2, h2, h3⟩ := loadAll_ok [(id, x)] done r hr hn
          have : r2 = r1 := by
            simp only [List.map_cons, List.map_nil, loadAll, loadOne, hg] at h2
            cases hr1
            simpa using h2.symm
          subst this
          obtain ⟨files, hf1, hf2⟩ := ih (done ++ [(id, x)]) r2 h3 hn h
          exact ⟨(id, x) :: files, by rw [hf1]; rfl, by simpa using hf2⟩

theorem loadedOk_nil : LoadedOk ([] : List (Id × Index Id)) ⟨[], []⟩ :=
  ⟨by simp, by simp [BSet.Sorted], by simp, by simp⟩

/-! ### Merging -/

theorem keys_foldl_append (ms : List (Id × BMap Id (Manifest Id))) (acc : BMap Id (Manifest Id)) (p : Id) :
    p ∈ BMap.keys (ms.foldl (fun m e => appendMap m e.2) acc) ↔
      p ∈ BMap.keys acc ∨ ∃ e ∈ ms, p ∈ BMap.keys e.2 := by
  induction ms generalizing acc with
  | nil => simp
  | cons e ms ih =>
    rw [List.foldl_cons, ih, keys_appendMap]
    simp only [List.mem_cons, exists_eq_or_imp]
    tauto

theorem mem_foldl_append (ms : List (Id × BMap Id (Manifest Id))) (acc : BMap Id (Manifest Id))
    (p : Id) (m : Manifest Id) (h : (p, m) ∈ ms.foldl (fun m e => appendMap m e.2) acc) :
    (p, m) ∈ acc ∨ ∃ e ∈ ms, (p, m) ∈ e.2 := by
  induction ms generalizing acc with
  | nil => exact .inl h
  | cons e ms ih =>
    rw [List.foldl_cons] at h
    rcases ih _ h with h | ⟨e', he, h⟩
    · rcases mem_appendMap h with h | h
      · exact .inl h
      · exact .inr ⟨e, by simp, h⟩
    · exact .inr ⟨e', by simp [he], h⟩

theorem sorted_foldl_append (ms : List (Id × BMap Id (Manifest Id))) (acc : BMap Id (Manifest Id))
    (h : BMap.Sorted acc) : BMap.Sorted (ms.foldl (fun m e => appendMap m e.2) acc) := by
  induction ms generalizing acc with
  | nil => exact h
  | cons e ms ih => exact ih _ (sorted_appendMap _ _ h)

theorem LoadedOk.unique {f g : List (Id × Index Id)} {r s : Loaded Id} (hr : LoadedOk f r)
    (hs : LoadedOk g s) (h : ∀ e, e ∈ f ↔ e ∈ g) : r = s := by
  have h1 : r.superseded = s.superseded :=
    BSet.ext_mem hr.ssort hs.ssort (fun i => by rw [hr.sup, hs.sup]; simp only [h])
  have h2 : r.loaded = s.loaded := by
    apply BMap.ext_get? hr.lsort hs.lsort
    intro k
    ext v
    rw [BMap.get?_eq_some_iff hr.lsort, BMap.get?_eq_some_iff hs.lsort, hr.loaded, hs.loaded]
    simp only [h]
  obtain ⟨a, b⟩ := r
  obtain ⟨c, d⟩ := s
  simp only at h1 h2
  rw [h1, h2]

/-! ### Lookup tables -/

theorem tableManifest_iff {V : Type} (f : Entry Id → V) (m : Manifest Id) (t : BMap Id V)
    (ht : BMap.Sorted t) :
    (∀ t', tableManifest f m t = .ok t' →
      (m.map Entry.id).Nodup ∧ (∀ b ∈ m.map Entry.id, b ∉ BMap.keys t) ∧ BMap.Sorted t' ∧
      ∀ b v, (b, v) ∈ t' ↔ (b, v) ∈ t ∨ ∃ e ∈ m, e.id = b ∧ f e = v) ∧
    ((m.map Entry.id).Nodup → (∀ b ∈ m.map Entry.id, b ∉ BMap.keys t) →
      ∃ t', tableManifest f m t = .ok t') := by
  induction m generalizing t with
  | nil =>
    refine ⟨?_, fun _ _ => ⟨t, rfl⟩⟩
    intro t' h
    simp only [tableManifest, Except.ok.injEq] at h
    subst h
    exact ⟨by simp, by simp, ht, by simp⟩
  | cons e m ih =>
    have hs := BMap.sorted_insert ht e.id (f e)
    by_cases hg : (t.get? e.id).isSome
    · constructor
      · intro t' h
        simp [tableManifest, hg] at h
      · intro _ h
        exact absurd (BMap.get?_isSome_iff.mp hg) (h e.id (by simp))
    · have hk : e.id ∉ BMap.keys t := fun h => hg (BMap.get?_isSome_iff.mpr h)
      obtain ⟨ih1, ih2⟩ := ih (BMap.insert e.id (f e) t) hs
      constructor
      · intro t' h
        simp only [tableManifest, hg] at h
        obtain ⟨h1, h2, h3, h4⟩ := ih1 t' (by simpa using h)
        refine ⟨?_, ?_, h3, ?_⟩
        · rw [List.map_cons, List.nodup_cons]
          exact ⟨fun hm => h2 _ hm (BMap.keys_insert_mem.mpr (.inl rfl)), h1⟩
        · intro b hb
          rw [List.map_cons, List.mem_cons] at hb
          rcases hb with rfl | hb
          · exact hk
          · exact fun hm => h2 b hb (BMap.keys_insert_mem.mpr (.inr hm))
        · intro b v
          rw [h4, BMap.mem_insert_iff ht]
          simp only [List.mem_cons, exists_eq_or_imp]
          constructor
          · rintro ((⟨rfl, rfl⟩ | ⟨_, h⟩) | h)
            · exact .inr (.inl ⟨rfl, rfl⟩)
            · exact .inl h
            · exact .inr (.inr h)
          · rintro (h | ⟨rfl, rfl⟩ | h)
            · refine .inl (.inr ⟨?_, h⟩)
              rintro rfl
              exact hk (BMap.mem_keys_of_mem h)
            · exact .inl (.inl ⟨rfl, rfl⟩)
            · exact .inr h
      · intro h1 h2
        rw [List.map_cons, List.nodup_cons] at h1
        obtain ⟨t', ht'⟩ := ih2 h1.2 (by
          intro b hb hm
          rcases BMap.keys_insert_mem.mp hm with rfl | hm
          · exact h1.1 hb
          · exact h2 b (by rw [List.map_cons]; exact List.mem_cons_of_mem _ hb) hm)
        exact ⟨t', by simp [tableManifest, hg, ht']⟩

theorem table_iff {V : Type} (f : Id → Entry Id → V) (ps : BMap Id (Manifest Id)) (t : BMap Id V)
    (ht : BMap.Sorted t) :
    (∀ t', table f ps t = .ok t' →
      (ps.flatMap (fun e => e.2.map Entry.id)).Nodup ∧
      (∀ b ∈ ps.flatMap (fun e => e.2.map Entry.id), b ∉ BMap.keys t) ∧ BMap.Sorted t' ∧
      ∀ b v, (b, v) ∈ t' ↔ (b, v) ∈ t ∨ ∃ p m e, (p, m) ∈ ps ∧ e ∈ m ∧ e.id = b ∧ f p e = v) ∧
    ((ps.flatMap (fun e => e.2.map Entry.id)).Nodup →
      (∀ b ∈ ps.flatMap (fun e => e.2.map Entry.id), b ∉ BMap.keys t) → ∃ t', table f ps t = .ok t') := by
  induction ps generalizing t with
  | nil =>
    refine ⟨?_, fun _ _ => ⟨t, rfl⟩⟩
    intro t' h
    simp only [table, Except.ok.injEq] at h
    subst h
    exact ⟨by simp, by simp, ht, by simp⟩
  | cons pm ps ih =>
    obtain ⟨p, m⟩ := pm
    obtain ⟨hm1, hm2⟩ := tableManifest_iff (f p) m t ht
    constructor
    · intro t' h
      simp only [table] at h
      split at h
      · simp at h
      · rename_i t1 ht1
        obtain ⟨a1, a2, a3, a4⟩ := hm1 t1 ht1
        obtain ⟨b1, b2, b3, b4⟩ := (ih t1 a3).1 t' h
        have hsub : ∀ b, b ∈ BMap.keys t1 ↔ b ∈ BMap.keys t ∨ b ∈ m.map Entry.id := by
          intro b
          constructor
          · intro hk
            obtain ⟨v, hv⟩ := BMap.mem_keys_iff.mp hk
            rcases (a4 b v).mp (BMap.mem_of_get? hv) with h | ⟨e, he, rfl, _⟩
            · exact .inl (BMap.mem_keys_of_mem h)
            · exact .inr (List.mem_map.mpr ⟨e, he, rfl⟩)
          · rintro (hk | hk)
            · obtain ⟨v, hv⟩ := BMap.mem_keys_iff.mp hk
              exact BMap.mem_keys_of_mem ((a4 b v).mpr (.inl (BMap.mem_of_get? hv)))
            · obtain ⟨e, he, rfl⟩ := List.mem_map.mp hk
              exact BMap.mem_keys_of_mem ((a4 _ _).mpr (.inr ⟨e, he, rfl, rfl⟩))
        refine ⟨?_, ?_, b3, ?_⟩
        · rw [List.flatMap_cons, List.nodup_append]
          refine ⟨a1, b1, ?_⟩
          rintro x hx y hy rfl
          exact b2 x hy ((hsub x).mpr (.inr hx))
        · intro b hb
          rw [List.flatMap_cons, List.mem_append] at hb
          rcases hb with hb | hb
          · exact a2 b hb
          · exact fun hk => b2 b hb ((hsub b).mpr (.inl hk))
        · intro b v
          rw [b4, a4]
          constructor
          · rintro ((h | ⟨e, he, h1, h2⟩) | ⟨p', m', e, h1, h2, h3⟩)
            · exact .inl h
            · exact .inr ⟨p, m, e, by simp, he, h1, h2⟩
            · exact .inr ⟨p', m', e, by simp [h1], h2, h3⟩
          · rintro (h | ⟨p', m', e, h1, h2, h3⟩)
            · exact .inl (.inl h)
            · rcases List.mem_cons.mp h1 with h1 | h1
              · simp only [Prod.mk.injEq] at h1
                obtain ⟨rfl, rfl⟩ := h1
                exact .inl (.inr ⟨e, h2, h3⟩)
              · exact .inr ⟨p', m', e, h1, h2, h3⟩
    · intro h1 h2
      rw [List.flatMap_cons, List.nodup_append] at h1
      simp only [List.flatMap_cons, List.mem_append] at h2
      obtain ⟨t1, ht1⟩ := hm2 h1.1 (fun b hb => h2 b (.inl hb))
      obtain ⟨a1, a2, a3, a4⟩ := hm1 t1 ht1
      obtain ⟨t', ht'⟩ := (ih t1 a3).2 h1.2.1 (by
        intro b hb hk
        obtain ⟨v, hv⟩ := BMap.mem_keys_iff.mp hk
        rcases (a4 b v).mp (BMap.mem_of_get? hv) with h | ⟨e, he, rfl, _⟩
        · exact h2 b (.inr hb) (BMap.mem_keys_of_mem h)
        · exact h1.2.2 e.id (List.mem_map.mpr ⟨e, he, rfl⟩) e.id hb rfl)
      exact ⟨t', by simp [table, ht1, ht']⟩

end Index
end Backpak
