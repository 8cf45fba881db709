import Verif.Lemmas.Forest

/-!
# Reading from a repository in good order
-/

namespace Backpak

open Spec

variable {Id : Type} [LinearOrder Id] {C : Codec Id} {ids : Ids Id} {R : Repo Id} {src : Source Id}

theorem manifestOf_eq (bs : Pack Id) :
    (bs.map fun b => (⟨b.kind, b.data.length, b.id⟩ : Entry Id)) = Pack.manifestOf bs := rfl

/-- The part of `Healthy` that reading needs; it says nothing about snapshots. -/
structure Sound (C : Codec Id) (R : Repo Id) : Prop where
  packs_sorted : BMap.Sorted R.packs
  indexes_sorted : BMap.Sorted R.indexes
  present : ∀ p m, Listed R.indexes p m → ∃ bs, (p, bs) ∈ R.packs ∧ Pack.manifestOf bs = m
  distinct : ∀ p m, Listed R.indexes p m → (m.map Entry.id).Nodup
  once : ∀ p m p' m' e e', Listed R.indexes p m → Listed R.indexes p' m' → e ∈ m → e' ∈ m' →
    e.id = e'.id → p = p'
  one_kind : ∀ p m, Listed R.indexes p m → ∃ k, ∀ e ∈ m, e.kind = k
  hashes : ∀ p bs b, Listed R.indexes p (Pack.manifestOf bs) → (p, bs) ∈ R.packs → b ∈ bs →
    C.hash b.data = b.id
  trees : ∀ p bs b, Listed R.indexes p (Pack.manifestOf bs) → (p, bs) ∈ R.packs → b ∈ bs →
    b.kind = .tree → ∃ t, Serde.OkTree t ∧ b.data = C.encTree t ∧ (b.id = C.emptyId → t = [])
  full : ∀ p bs b, Listed R.indexes p (Pack.manifestOf bs) → (p, bs) ∈ R.packs → b ∈ bs → b.data ≠ []

theorem Spec.Healthy.sound (h : Healthy C ids R) : Sound C R :=
  ⟨h.packs_sorted, h.indexes_sorted, h.present, h.distinct, h.once, h.one_kind, h.hashes, h.trees, h.full⟩

namespace Sound

variable (h : Sound C R)
include h

theorem pack_one {p : Id} {bs bs' : Pack Id} (h1 : (p, bs) ∈ R.packs) (h2 : (p, bs') ∈ R.packs) :
    bs = bs' := by
  have a := (BMap.get?_eq_some_iff h.packs_sorted).mpr h1
  have b := (BMap.get?_eq_some_iff h.packs_sorted).mpr h2
  rw [a] at b
  exact Option.some.inj b

theorem listed_one {p : Id} {m m' : Manifest Id} (h1 : Listed R.indexes p m)
    (h2 : Listed R.indexes p m') : m = m' := by
  obtain ⟨bs, hb, rfl⟩ := h.present p m h1
  obtain ⟨bs', hb', rfl⟩ := h.present p m' h2
  rw [h.pack_one hb hb']

theorem has_iff (b : Blob Id) : Has C R b ↔
    ∃ p bs, Listed R.indexes p (Pack.manifestOf bs) ∧ (p, bs) ∈ R.packs ∧ b ∈ bs := by
  constructor
  · rintro ⟨_, h2⟩; exact h2
  · rintro ⟨p, bs, h1, h2, h3⟩; exact ⟨h.hashes p bs b h1 h2 h3, p, bs, h1, h2, h3⟩

theorem has_one {b b' : Blob Id} (h1 : Has C R b) (h2 : Has C R b') (hid : b.id = b'.id) :
    b = b' := by
  obtain ⟨_, p, bs, l, hp, hb⟩ := h1
  obtain ⟨_, p', bs', l', hp', hb'⟩ := h2
  have hm : ∀ {b : Blob Id} {bs : Pack Id}, b ∈ bs → Pack.entryOf b ∈ Pack.manifestOf bs :=
    fun h => List.mem_map.mpr ⟨_, h, rfl⟩
  have : p = p' := h.once p _ p' _ (Pack.entryOf b) (Pack.entryOf b') l l' (hm hb) (hm hb') hid
  subst this
  obtain rfl := h.pack_one hp hp'
  have hn := h.distinct p _ l
  rw [List.map_map] at hn
  have hinj := List.inj_on_of_nodup_map hn
  exact hinj hb hb' hid

theorem treeAt_one {id : Id} {t t' : Tree Id} (h1 : TreeAt C R id t) (h2 : TreeAt C R id t') :
    t = t' := by
  obtain ⟨o1, e1, c1⟩ := h1
  obtain ⟨o2, e2, c2⟩ := h2
  have key : ∀ {t}, Serde.OkTree t → Has C R ⟨C.encTree t, id, .tree⟩ → id = C.emptyId → t = [] := by
    intro t ok hh he
    obtain ⟨p, bs, l, hp, hb⟩ := (h.has_iff _).mp hh
    obtain ⟨u, hu, hd, hz⟩ := h.trees p bs _ l hp hb rfl
    have : C.decTree (C.encTree t) = some (u, []) := by
      rw [show C.encTree t = C.encTree u from hd]; exact C.dec_enc u hu
    rw [C.dec_enc t ok] at this
    simp only [Option.some.injEq, Prod.mk.injEq, and_true] at this
    rw [this]; exact hz he
  rcases c1 with rfl | c1
  · rcases c2 with rfl | c2
    · rfl
    · exact (key o2 c2 e1.symm).symm
  · rcases c2 with rfl | c2
    · exact key o1 c1 e2.symm
    · have := h.has_one c1 c2 rfl
      simp only [Blob.mk.injEq, and_true] at this
      have h3 := C.dec_enc t o1
      rw [this, C.dec_enc t' o2] at h3
      simp only [Option.some.injEq, Prod.mk.injEq, and_true] at h3
      exact h3.symm

end Sound

theorem listed_perm {f f' : List (Id × Index Id)} (h : f.Perm f') (p : Id) (m : Manifest Id) :
    Listed f p m ↔ Listed f' p m := by
  unfold Listed LiveIndex Superseded
  simp only [h.mem_iff]

/-- What the opened index says is what the live indexes list. -/
theorem opens_index (h : Sound C R) (ho : Opens R src) (p : Id) (m : Manifest Id) :
    src.index.packs.get? p = some m ↔ Listed R.indexes p m := by
  obtain ⟨files, hp, hb⟩ := ho.master
  rw [← listed_perm hp]
  refine C17.packs_exact files ?_ src.index hb ?_ p m
  · exact ((hp.map Prod.fst).nodup_iff).mpr h.indexes_sorted.nodup
  · intro p m m' h1 h2
    exact h.listed_one ((listed_perm hp p m).mp h1) ((listed_perm hp p m').mp h2)

theorem buildMaster_sorted {l : List (Id × Res (Index Id))} {x : Index Id}
    (h : Index.buildMaster l = .ok x) : BMap.Sorted x.packs := by
  unfold Index.buildMaster at h
  split at h
  · simp at h
  · rename_i r _
    cases h
    unfold Index.merge
    generalize (r.superseded.foldl (fun m i => BMap.erase i m) r.loaded) = l
    have : ∀ (l : List (Id × BMap Id (Manifest Id))) (a : BMap Id (Manifest Id)), BMap.Sorted a →
        BMap.Sorted (l.foldl (fun m e => Index.appendMap m e.2) a) := by
      intro l
      induction l with
      | nil => exact fun a h => h
      | cons e l ih => exact fun a h => ih _ (BMap.sorted_foldl_insert _ _ h)
    exact this l [] (by simp [BMap.Sorted, BMap.keys])

theorem opens_packs_sorted (ho : Opens R src) : BMap.Sorted src.index.packs := by
  obtain ⟨files, hp, hb⟩ := ho.master
  exact buildMaster_sorted hb

theorem opens_mem (h : Sound C R) (ho : Opens R src) (p : Id) (m : Manifest Id) :
    (p, m) ∈ src.index.packs ↔ Listed R.indexes p m := by
  rw [← BMap.get?_eq_some_iff (opens_packs_sorted ho), opens_index h ho]

theorem opens_lookup (h : Sound C R) (ho : Opens R src) (b p : Id) :
    src.blobMap.get? b = some p ↔ ∃ m e, Listed R.indexes p m ∧ e ∈ m ∧ e.id = b := by
  rw [C18.lookup_iff _ _ ho.blobMap]
  simp only [opens_mem h ho]

/-- A blob that can be found is looked up in the pack holding it. -/
theorem lookup_has (h : Sound C R) (ho : Opens R src) {b : Blob Id} (hb : Has C R b) :
    ∃ p bs s, src.blobMap.get? b.id = some p ∧ src.index.packs.get? p = some (Pack.manifestOf bs) ∧
      (p, bs) ∈ R.packs ∧ Listed R.indexes p (Pack.manifestOf bs) ∧ b ∈ bs ∧
      src.read p = .ok s ∧ Pack.contentOf bs <+: s.data := by
  obtain ⟨p, bs, l, hp, hm⟩ := (h.has_iff b).mp hb
  obtain ⟨s, h1, h2⟩ := ho.read p bs hp
  exact ⟨p, bs, s, (opens_lookup h ho _ _).mpr ⟨_, _, l, List.mem_map.mpr ⟨b, hm, rfl⟩, rfl⟩,
    (opens_index h ho _ _).mpr l, hp, l, hm, h1, h2⟩

/-- Whatever is looked up is the ID of a blob in the pack found. -/
theorem lookup_sound (h : Sound C R) (ho : Opens R src) {id p : Id}
    (hl : src.blobMap.get? id = some p) :
    ∃ bs s b, src.index.packs.get? p = some (Pack.manifestOf bs) ∧
      (p, bs) ∈ R.packs ∧ Listed R.indexes p (Pack.manifestOf bs) ∧ b ∈ bs ∧ b.id = id ∧ Has C R b ∧
      src.read p = .ok s ∧ Pack.contentOf bs <+: s.data := by
  obtain ⟨m, e, l, he, hid⟩ := (opens_lookup h ho _ _).mp hl
  obtain ⟨bs, hp, rfl⟩ := h.present p m l
  obtain ⟨b, hb, rfl⟩ := List.mem_map.mp he
  obtain ⟨s, h1, h2⟩ := ho.read p bs hp
  exact ⟨bs, s, b, (opens_index h ho _ _).mpr l, hp, l, hb, hid,
    (h.has_iff b).mpr ⟨p, bs, l, hp, hb⟩, h1, h2⟩

/-- A source for a repository, loading the indexes in order of ID. -/
def sourceOf (R : Repo Id) (x : Index Id) (bm : BMap Id Id) : Source Id where
  index := x
  blobMap := bm
  read p := match R.packs.get? p with
    | some bs => .ok ⟨Pack.contentOf bs, false⟩
    | none => .error (.err "no such pack")

/-- A sound repository can be opened. -/
theorem opens_with (h : Sound C R) : ∃ x bm,
    Index.buildMaster (R.indexes.map fun e => (e.1, .ok e.2)) = .ok x ∧ Index.blobToPack x = .ok bm ∧
    Opens R (sourceOf R x bm) := by
  obtain ⟨x, hx⟩ := (C17.succeeds_iff _).mpr ⟨R.indexes, rfl, h.indexes_sorted.nodup⟩
  have hg : ∀ p m, (p, m) ∈ x.packs ↔ Listed R.indexes p m := by
    intro p m
    rw [← BMap.get?_eq_some_iff (buildMaster_sorted hx)]
    exact C17.packs_exact R.indexes h.indexes_sorted.nodup x hx
      (fun p m m' h1 h2 => h.listed_one h1 h2) p m
  have hn : (blobsListed x.packs).Nodup := by
    unfold blobsListed
    rw [List.nodup_flatMap]
    refine ⟨fun e he => h.distinct e.1 e.2 ((hg _ _).mp he), ?_⟩
    have hs := buildMaster_sorted hx
    unfold BMap.Sorted BMap.keys at hs
    rw [List.pairwise_map] at hs
    refine hs.imp_of_mem ?_
    rintro ⟨p, m⟩ ⟨p', m'⟩ h1 h2 hlt b hb hb'
    obtain ⟨e, he, rfl⟩ := List.mem_map.mp hb
    obtain ⟨e', he', hid⟩ := List.mem_map.mp hb'
    have := h.once p m p' m' e e' ((hg _ _).mp h1) ((hg _ _).mp h2) he he' hid.symm
    exact absurd this (ne_of_lt hlt)
  obtain ⟨bm, hbm⟩ := (C18.refused_iff x).1.mpr hn
  refine ⟨x, bm, hx, hbm, ⟨R.indexes, .refl _, hx⟩, hbm, ?_, ?_⟩
  · intro p bs hp
    refine ⟨⟨Pack.contentOf bs, false⟩, ?_, List.prefix_refl _⟩
    simp only [sourceOf, (BMap.get?_eq_some_iff h.packs_sorted).mpr hp]
  · intro p hp
    refine ⟨"no such pack", ?_⟩
    have : R.packs.get? p = none := BMap.get?_eq_none_iff.mpr hp
    simp only [sourceOf, this]

theorem opens_exists (h : Sound C R) : ∃ src, Opens R src := by
  obtain ⟨x, bm, _, _, h⟩ := opens_with h
  exact ⟨_, h⟩

/-- A tree cache holding only what the repository holds. -/
structure CacheOk (C : Codec Id) (R : Repo Id) (cache : Forest Id) : Prop where
  sorted : BMap.Sorted cache
  empty : cache.get? C.emptyId = some []
  sound : ∀ id t, cache.get? id = some t → TreeAt C R id t

theorem okTree_nil : Serde.OkTree ([] : Tree Id) :=
  ⟨by simp [BMap.Sorted, BMap.keys], by simp, by simp, by simp, by simp⟩

theorem treeAt_nil : TreeAt C R C.emptyId [] := ⟨okTree_nil, rfl, .inl rfl⟩

theorem newTreeCache_ok : CacheOk C R (newTreeCache C) := by
  refine ⟨by simp [newTreeCache, BMap.Sorted, BMap.keys], by simp [newTreeCache, BMap.get?], ?_⟩
  intro id t h
  simp only [newTreeCache, BMap.get?] at h
  split at h
  · rename_i he
    simp only [Option.some.injEq] at h
    subst he; subst h
    exact treeAt_nil
  · simp at h

/-- A pack of chunks adds nothing to the tree cache. -/
theorem appendLoop_chunks (bs : Pack Id) (hk : ∀ b ∈ bs, b.kind = .chunk) (s : Stream)
    (hs : Pack.contentOf bs <+: s.data) (cache : Forest Id) :
    Pack.appendLoop C.hash C.decTree (Pack.manifestOf bs) s cache = .ok cache := by
  induction bs generalizing s with
  | nil => rfl
  | cons b bs ih =>
    rw [Pack.contentOf_cons] at hs
    obtain ⟨r, hr⟩ := hs
    have ht : s.take (Pack.entryOf b).length = .ok (b.data, ⟨Pack.contentOf bs ++ r, s.bad⟩) :=
      Stream.take_append (by rw [← hr, List.append_assoc])
    rw [Pack.manifestOf_cons]
    unfold Pack.appendLoop
    rw [if_pos (Or.inl (show (Pack.entryOf b).kind ≠ .tree by
      rw [show (Pack.entryOf b).kind = .chunk from hk b (by simp)]; decide)), ht]
    simp only
    rw [if_pos (show b.data.length = (Pack.entryOf b).length from rfl)]
    exact ih (fun c hc => hk c (List.mem_cons_of_mem _ hc)) _ (List.prefix_append _ _)

/-- Loading a listed pack of a sound repository into a good cache succeeds, and adds exactly
the pack's trees. -/
theorem load_trees (h : Sound C R) {cache : Forest Id} (hc : CacheOk C R cache) {p : Id}
    {bs : Pack Id} (hp : (p, bs) ∈ R.packs) (l : Listed R.indexes p (Pack.manifestOf bs))
    {s : Stream} (hs : Pack.contentOf bs <+: s.data) :
    ∃ cache', Pack.appendLoop C.hash C.decTree (Pack.manifestOf bs) s cache = .ok cache' ∧
      CacheOk C R cache' ∧ (∀ id t, cache.get? id = some t → cache'.get? id = some t) ∧
      (∀ b ∈ bs, b.kind = .tree → (cache'.get? b.id).isSome) ∧
      (∀ id, (cache'.get? id).isSome → (cache.get? id).isSome ∨ id ∈ bs.map Blob.id) := by
  obtain ⟨k, hk⟩ := h.one_kind p _ l
  have hk' : ∀ b ∈ bs, b.kind = k := fun b hb => hk _ (List.mem_map.mpr ⟨b, hb, rfl⟩)
  cases k with
  | chunk =>
    refine ⟨cache, appendLoop_chunks bs hk' s hs cache, hc, fun _ _ h => h, ?_, fun _ h => .inl h⟩
    intro b hb he
    rw [hk' b hb] at he; cases he
  | tree =>
    have hex : ∃ ts : List (Tree Id), bs = ts.map (Pack.treeBlob C.hash C.encTree) ∧
        ∀ t ∈ ts, Serde.OkTree t := by
      have hall : ∀ b ∈ bs, ∃ t, Serde.OkTree t ∧ b = Pack.treeBlob C.hash C.encTree t := by
        intro b hb
        obtain ⟨t, ht, hd, _⟩ := h.trees p bs b l hp hb (hk' b hb)
        refine ⟨t, ht, ?_⟩
        have h1 := h.hashes p bs b l hp hb
        have h2 := hk' b hb
        cases b
        simp only [Pack.treeBlob, Blob.mk.injEq]
        simp only at hd h1 h2
        exact ⟨hd, by rw [← h1, hd], h2⟩
      clear hs l hp hk hk'
      induction bs with
      | nil => exact ⟨[], rfl, by simp⟩
      | cons b bs ih =>
        obtain ⟨ts, h1, h2⟩ := ih (fun b hb => hall b (List.mem_cons_of_mem _ hb))
        obtain ⟨t, ht, hb⟩ := hall b (by simp)
        refine ⟨t :: ts, by rw [List.map_cons, ← h1, ← hb], ?_⟩
        intro u hu
        rcases List.mem_cons.mp hu with rfl | hu
        · exact ht
        · exact h2 u hu
    obtain ⟨ts, hts, hok⟩ := hex
    have hs' := hs
    rw [hts] at hs'
    obtain ⟨cache', h1, h2, h3⟩ := Pack.appendLoop_written C.hash (decTree := C.decTree) ts
      (fun t ht => C.dec_enc t (hok t ht)) s hs' cache hc.sorted
    refine ⟨cache', by rw [hts]; exact h1, ⟨h2, ?_, ?_⟩, ?_, ?_, ?_⟩
    · rw [h3, hc.empty]; rfl
    · intro id t hg
      rw [h3] at hg
      rcases Option.or_eq_some_iff.mp hg with h4 | ⟨_, h4⟩
      · exact hc.sound id t h4
      · have hm := List.mem_of_find?_eq_some h4
        have he := List.find?_some h4
        simp only [decide_eq_true_eq] at he
        refine ⟨hok t hm, he, .inr ((h.has_iff _).mpr ⟨p, bs, l, hp, ?_⟩)⟩
        rw [hts]
        exact List.mem_map.mpr ⟨t, hm, by rw [Pack.treeBlob, he]⟩
    · intro id t hg
      rw [h3, hg]; rfl
    · intro b hb _
      rw [h3]
      rw [hts] at hb
      obtain ⟨t, ht, rfl⟩ := List.mem_map.mp hb
      rw [Option.isSome_or]
      simp only [Bool.or_eq_true]
      right
      rw [List.find?_isSome]
      exact ⟨t, ht, by simp [Pack.treeBlob]⟩
    · intro id hi
      rw [h3, Option.isSome_or, Bool.or_eq_true] at hi
      rcases hi with hi | hi
      · exact .inl hi
      · right
        rw [List.find?_isSome] at hi
        obtain ⟨t, ht, he⟩ := hi
        simp only [decide_eq_true_eq] at he
        rw [hts]
        exact List.mem_map.mpr ⟨_, List.mem_map.mpr ⟨t, ht, rfl⟩, he⟩

/-- Reading a tree through the cache gives what its ID stands for. -/
theorem treeRead_sound (hS : Sound C R) (ho : Opens R src) {cache cache' : Forest Id}
    (hc : CacheOk C R cache) {id : Id} {t : Tree Id}
    (hr : treeRead C src cache id = .ok (t, cache')) :
    TreeAt C R id t ∧ CacheOk C R cache' ∧
      (∀ k, (cache'.get? k).isSome → (cache.get? k).isSome ∨ (src.blobMap.get? k).isSome) := by
  unfold treeRead at hr
  split at hr
  · rename_i t' ht
    simp only [Except.ok.injEq, Prod.mk.injEq] at hr
    obtain ⟨rfl, rfl⟩ := hr
    exact ⟨hc.sound id _ ht, hc, fun _ h => .inl h⟩
  · split at hr
    · simp at hr
    · rename_i p hp
      obtain ⟨bs, s, b, h1, h2, h3, h4, h5, h6, h7, h8⟩ := lookup_sound hS ho hp
      rw [h7] at hr
      simp only [h1] at hr
      obtain ⟨cache2, g1, g2, g3, g4, g5⟩ := load_trees hS hc h2 h3 h8
      rw [g1] at hr
      simp only at hr
      split at hr
      · simp at hr
      · rename_i u hu
        simp only [Except.ok.injEq, Prod.mk.injEq] at hr
        obtain ⟨rfl, rfl⟩ := hr
        refine ⟨g2.sound id _ hu, g2, fun k hk => ?_⟩
        rcases g5 k hk with h | h
        · exact .inl h
        · right
          obtain ⟨c, hc', rfl⟩ := List.mem_map.mp h
          rw [Option.isSome_iff_exists]
          exact ⟨p, (opens_lookup hS ho _ _).mpr
            ⟨_, _, h3, List.mem_map.mpr ⟨c, hc', rfl⟩, rfl⟩⟩

/-- Reading a tree that is there succeeds. -/
theorem treeRead_complete (h : Sound C R) (ho : Opens R src) {cache : Forest Id}
    (hc : CacheOk C R cache) {id : Id} {t : Tree Id} (ht : TreeAt C R id t) :
    ∃ cache', treeRead C src cache id = .ok (t, cache') ∧ CacheOk C R cache' ∧
      (∀ k u, cache.get? k = some u → cache'.get? k = some u) := by
  unfold treeRead
  cases hg : cache.get? id with
  | some u =>
    rw [h.treeAt_one (hc.sound id u hg) ht]
    exact ⟨cache, rfl, hc, fun _ _ h => h⟩
  | none =>
    rcases ht.2.2 with rfl | hh
    · have : id = C.emptyId := ht.2.1.symm
      rw [this, hc.empty] at hg; cases hg
    · obtain ⟨p, bs, s, h1, h2, h3, h4, h5, h6, h7⟩ := lookup_has h ho hh
      simp only at h1
      obtain ⟨cache2, g1, g2, g3, g4, _⟩ := load_trees h hc h3 h4 h7
      simp only [h1, h6, h2, g1]
      obtain ⟨u, hu⟩ := Option.isSome_iff_exists.mp (g4 _ h5 rfl)
      simp only at hu
      rw [hu]
      have := h.treeAt_one (g2.sound id u hu) ht
      exact ⟨cache2, by rw [this], g2, g3⟩

end Backpak
