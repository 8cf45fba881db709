import Verif.Model.FilterSnapshot
import Verif.Lemmas.Prune
import Verif.Lemmas.Backup
import Verif.Lemmas.Finish
import Verif.Lemmas.Copy

/-!
# What filtering a snapshot does

Its walk does what a repacking walk does when all chunks are packed already, so what is known of
that carries over.
-/

namespace Backpak

open Spec Pipeline

variable {Id : Type} [LinearOrder Id]

theorem offer_packed {s : Sends Id} {b : Blob Id} {i : Id} (h : i ∈ s.packed) : i ∈ (offer s b).packed := by
  unfold offer
  split
  · exact h
  · exact List.mem_cons_of_mem _ h

variable {C : Codec Id} {src : Source Id} {env : CacheEnv Id} {filter : Path → Bool} {F : Forest Id}

theorem repackChunks_packed {cs : List Id} {s s' : Sends Id} {r r' : ReaderState Id}
    (hc : ∀ c ∈ cs, c ∈ s.packed) (h : repackChunks C src env cs (s, r) = .ok (s', r')) : s' = s := by
  induction cs with
  | nil => cases h; rfl
  | cons c cs ih =>
    rw [repackChunks, if_pos (hc c List.mem_cons_self)] at h
    split at h
    · cases h
    · exact ih (fun c h => hc c (List.mem_cons_of_mem _ h)) h

/-- The chunks of these nodes are packed. -/
def ChunksPacked (t : Tree Id) (s : Sends Id) : Prop := ∀ c ∈ chunksInTree t, c ∈ s.packed

theorem filterWalkNodes_of {downR : Path → Id → Repacking Id → Res (Id × Repacking Id)}
    {downF : Path → Id → Sends Id → Res (Id × Sends Id)} {P : Sends Id → Prop}
    (hd : ∀ path id s r root s' r', P s → downR path id (s, r) = .ok (root, (s', r')) →
      downF path id s = .ok (root, s') ∧ P s' ∧ ∀ i ∈ s.packed, i ∈ s'.packed) (path : Path) :
    ∀ (t acc t' : Tree Id) (s s' : Sends Id) (r r' : ReaderState Id), P s → ChunksPacked t s →
      repackNodes C src env filter downR path t acc (s, r) = .ok (t', (s', r')) →
      filterWalkNodes filter downF path t acc s = .ok (t', s') ∧ P s' ∧ ∀ i ∈ s.packed, i ∈ s'.packed := by
  intro t
  induction t with
  | nil =>
    intro acc t' s s' r r' hP _ h
    cases h
    exact ⟨rfl, hP, fun i hi => hi⟩
  | cons e rest ih =>
    obtain ⟨n, x⟩ := e
    intro acc t' s s' r r' hP hc h
    have hrest : ChunksPacked rest s := fun c h => hc c (List.mem_append_right _ h)
    rw [repackNodes] at h
    rw [filterWalkNodes]
    split at h
    · rename_i hf
      rw [if_pos hf]
      exact ih acc t' s s' r r' hP hrest h
    · rename_i hf
      rw [if_neg hf]
      split at h
      · cases h
      · rename_i y st' hst
        obtain ⟨s1, r1⟩ := st'
        have hnode : filterWalkNode downF (path ++ [n]) x s = .ok (y, s1) ∧ P s1 ∧
            ∀ i ∈ s.packed, i ∈ s1.packed := by
          unfold repackNode at hst
          unfold filterWalkNode
          have hx : ∀ c ∈ chunksInNode x, c ∈ s.packed := fun c h => hc c (List.mem_append_left _ h)
          unfold chunksInNode at hx
          split at hst
          · rename_i cs hcs
            simp only [hcs] at hx ⊢
            cases hrc : repackChunks C src env cs (s, r) with
            | error e => rw [hrc] at hst; cases hst
            | ok q =>
              obtain ⟨s2, r2⟩ := q
              rw [hrc] at hst
              cases hst
              have := repackChunks_packed hx hrc
              subst this
              rw [if_pos (by simpa using hx)]
              exact ⟨rfl, hP, fun i hi => hi⟩
          · rename_i tgt ht
            simp only [ht]
            cases hst
            exact ⟨rfl, hP, fun i hi => hi⟩
          · rename_i sub hsub
            simp only [hsub]
            cases hdr : downR (path ++ [n]) sub (s, r) with
            | error e => rw [hdr] at hst; cases hst
            | ok q =>
              obtain ⟨root, s2, r2⟩ := q
              rw [hdr] at hst
              cases hst
              obtain ⟨h1, h2, h3⟩ := hd _ _ _ _ _ _ _ hP hdr
              rw [h1]
              exact ⟨rfl, h2, h3⟩
        obtain ⟨h1, h2, h3⟩ := hnode
        rw [h1]
        simp only at h ⊢
        split at h
        · cases h
        · rename_i hacc
          rw [if_neg hacc]
          obtain ⟨h4, h5, h6⟩ := ih _ _ _ _ _ _ h2 (fun c h => h3 c (hrest c h)) h
          exact ⟨h4, h5, fun i hi => h6 i (h3 i hi)⟩

theorem filterWalk_of :
    ∀ (k : Nat) (path : Path) (id : Id) (s s' : Sends Id) (r r' : ReaderState Id) (root : Id),
      (∀ id t, F.get? id = some t → ChunksPacked t s) →
      repackTree C src env filter F k path id (s, r) = .ok (root, (s', r')) →
      filterWalk C filter F k path id s = .ok (root, s') ∧
      (∀ id t, F.get? id = some t → ChunksPacked t s') ∧ ∀ i ∈ s.packed, i ∈ s'.packed := by
  intro k
  induction k with
  | zero => intro path id s s' r r' root _ h; cases h
  | succ k ih =>
    intro path id s s' r r' root hP h
    rw [repackTree] at h
    rw [filterWalk]
    split at h
    · cases h
    · rename_i t ht
      simp only [ht]
      split at h
      · cases h
      · rename_i t' s1 r1 hn
        cases h
        obtain ⟨h1, h2, h3⟩ := filterWalkNodes_of (P := fun s => ∀ id t, F.get? id = some t → ChunksPacked t s)
          (fun path id s r root s' r' hP h => ih path id s s' r r' root hP h) path t [] t' s s1 r _ hP (hP id t ht) hn
        rw [h1]
        exact ⟨rfl, fun id t ht c hc => offer_packed (h2 id t ht c hc), fun i hi => offer_packed (h3 i hi)⟩

/-! ## A stale work-in-progress file -/

/-- The same state with another work-in-progress file. -/
def setWip (s : State Id) (v : Option (Index Id)) : State Id :=
  { s with world := ⟨s.world.repo, ⟨v, s.world.cwd.packs, s.world.cwd.indexes⟩⟩ }

/-- The indexer has written no work-in-progress file. -/
def Unwritten (i : IndexerState Id) : Prop :=
  (∃ x, i = .persist x) ∨ (∃ x, i = .recv x ∧ x.isEmpty = true) ∨ i = .exited none ∨ i = .dead

/-- The files are the same, or this one is the old one. -/
def Stale (w : World Id) (s : State Id) (v : Option (Index Id)) : Prop :=
  v = s.world.cwd.wip ∨ (v = none ∧ s.world.cwd.wip = w.cwd.wip ∧ Unwritten s.ix)

/-- No step looks at it. -/
theorem step_setWip {c : Cfg Id} (hlive : c.live = true) (w : World Id) {s s' : State Id} (h : Step c s s')
    (v : Option (Index Id)) :
    ∃ v', Step c (setWip s v) (setWip s' v') ∧ (Stale w s v → Stale w s' v') := by
  have same : ∀ {t : State Id}, t.world.cwd.wip = s.world.cwd.wip → t.ix = s.ix → Stale w s v → Stale w t v := by
    intro t h1 h2 hv
    rcases hv with h | ⟨h3, h4, h5⟩
    · exact .inl (by rw [h, h1])
    · exact .inr ⟨h3, by rw [h1]; exact h4, by rw [h2]; exact h5⟩
  have never : ∀ {x : Index Id}, (s.ix = .copy x ∨ s.ix = .sendUp x ∨ s.ix = .persistLast x ∨
      (s.ix = .recv x ∧ x.isEmpty = false)) → Stale w s v → v = s.world.cwd.wip := by
    intro x hx hv
    rcases hv with h | ⟨_, _, h5⟩
    · exact h
    · exfalso
      rcases hx with hx | hx | hx | ⟨hx, he⟩ <;> rw [hx] at h5 <;> rcases h5 with ⟨y, h⟩ | ⟨y, h, h6⟩ | h | h <;>
        cases h
      rw [he] at h6; cases h6
  cases h with
  | spawn h1 h2 => exact ⟨v, .spawn (setWip s v) h1 h2, same rfl rfl⟩
  | mainUp p bs rest h1 h2 h3 h4 => exact ⟨v, .mainUp (setWip s v) p bs rest h1 h2 h3 h4, same rfl rfl⟩
  | mainSend b cur rest h1 h2 h3 => exact ⟨v, .mainSend (setWip s v) b cur rest h1 h2 h3, same rfl rfl⟩
  | close h1 h2 => exact ⟨v, .close (setWip s v) h1 h2, same rfl rfl⟩
  | endPack k cur h1 h2 h3 h4 => exact ⟨v, .endPack (setWip s v) k cur h1 h2 h3 h4, same rfl rfl⟩
  | packerExit k cur h1 h2 h3 h4 => exact ⟨v, .packerExit (setWip s v) k cur h1 h2 h3 h4, same rfl rfl⟩
  | packerUp k id bs h1 h2 h3 => exact ⟨v, .packerUp (setWip s v) k id bs h1 h2 h3, same rfl rfl⟩
  | packerIdx k id bs x h1 h2 h3 h4 =>
    refine ⟨v, .packerIdx (setWip s v) k id bs x h1 h2 h3 h4, fun hv => ?_⟩
    rcases hv with h | ⟨h5, h6, _⟩
    · exact .inl h
    · exact .inr ⟨h5, h6, .inl ⟨_, if_pos hlive⟩⟩
  | packerDup k id bs x h1 h2 h3 h4 =>
    refine ⟨v, .packerDup (setWip s v) k id bs x h1 h2 h3 h4, fun hv => ?_⟩
    rcases hv with h | ⟨h5, h6, _⟩
    · exact .inl h
    · exact .inr ⟨h5, h6, .inr (.inr (.inr rfl))⟩
  | ixPersist x h1 h2 => exact ⟨some x, .ixPersist (setWip s v) x h1 h2, fun _ => .inl rfl⟩
  | ixEmpty x h1 h2 h3 h4 h5 =>
    refine ⟨v, .ixEmpty (setWip s v) x h1 h2 h3 h4 h5, fun hv => ?_⟩
    rcases hv with h | ⟨h5, h6, _⟩
    · exact .inl h
    · exact .inr ⟨h5, h6, .inr (.inr (.inl rfl))⟩
  | ixClosed x h1 h2 h3 h4 h5 =>
    exact ⟨v, .ixClosed (setWip s v) x h1 h2 h3 h4 h5, fun hv => .inl (never (.inr (.inr (.inr ⟨h1, h5⟩))) hv)⟩
  | ixPersistLast x h1 => exact ⟨some x, .ixPersistLast (setWip s v) x h1, fun _ => .inl rfl⟩
  | ixCopy x h1 => exact ⟨v, .ixCopy (setWip s v) x h1, fun hv => .inl (never (.inl h1) hv)⟩
  | ixUp x h1 h2 h3 => exact ⟨v, .ixUp (setWip s v) x h1 h2 h3, fun hv => .inl (never (.inr (.inl h1)) hv)⟩
  | upStore i h1 h2 => exact ⟨v, .upStore (setWip s v) i h1 h2, same rfl rfl⟩
  | upDrop i h1 => refine ⟨v, ?_⟩; cases i <;> exact ⟨.upDrop (setWip s v) _ h1, same rfl rfl⟩
  | upMove i h1 h2 => refine ⟨v, ?_⟩; cases i <;> exact ⟨.upMove (setWip s v) _ h1 h2, same rfl rfl⟩
  | upDiscard i h1 h2 => refine ⟨v, ?_⟩; cases i <;> exact ⟨.upDiscard (setWip s v) _ h1 h2, same rfl rfl⟩
  | upExit h1 h2 h3 h4 h5 h6 => exact ⟨v, .upExit (setWip s v) h1 h2 h3 h4 h5 h6, same rfl rfl⟩
  | join h1 h2 h3 h4 h5 h6 h7 => exact ⟨none, .join (setWip s v) h1 h2 h3 h4 h5 h6 h7, fun _ => .inl rfl⟩

theorem steps_setWip {c : Cfg Id} (hlive : c.live = true) {s s' : State Id}
    (h : Relation.ReflTransGen (Step c) s s') (v : Option (Index Id)) :
    ∃ v', Relation.ReflTransGen (Step c) (setWip s v) (setWip s' v') := by
  induction h with
  | refl => exact ⟨v, .refl⟩
  | tail _ hs ih =>
    obtain ⟨v1, h1⟩ := ih
    obtain ⟨v2, h2, _⟩ := step_setWip hlive s.world hs v1
    exact ⟨v2, h1.tail h2⟩

/-- The same world without one. -/
def noWip (w : World Id) : World Id := ⟨w.repo, ⟨none, w.cwd.packs, w.cwd.indexes⟩⟩

theorem reachable_noWip {c : Cfg Id} (hlive : c.live = true) (hstart : c.start.isEmpty = true) {w : World Id}
    {main : List (Op Id)} {s : State Id} (h : Reachable c w main s) :
    ∃ v, Reachable c (noWip w) main (setWip s v) ∧ Stale w s v := by
  induction h with
  | refl =>
    refine ⟨none, .refl, .inr ⟨rfl, rfl, .inr (.inl ⟨c.start, ?_, hstart⟩)⟩⟩
    simp [init, hstart]
  | tail _ hs ih =>
    obtain ⟨v, h1, h2⟩ := ih
    obtain ⟨v', h3, h4⟩ := step_setWip hlive w hs v
    exact ⟨v', h1.tail h3, h4 h2⟩

/-! ## The whole command -/

/-- What filter-snapshot is assumed to work with: a repository in good order, opened, and a
snapshot in it; and packs in the working directory that are what their names say. -/
structure FilterOk (C : Codec Id) (ids : Ids Id) (w : World Id) (src : Source Id) (target : Snap Id) : Prop where
  healthy : Healthy C ids w.repo
  opens : Opens w.repo src
  loaded : (target.2, target.1) ∈ w.repo.snapshots
  names : ∀ p bs, (p, bs) ∈ w.cwd.packs → p = ids.packId (Pack.manifestOf bs)

/-- The trees of the filtered snapshot. -/
def filterTrees (C : Codec Id) (src : Source Id) (target : Snap Id) (filter : Path → Bool) : List (Blob Id) :=
  match forestFromRoot C src target.1.tree (newTreeCache C) with
  | .error _ => []
  | .ok (F, _) => (filterTree C filter F (F.length + 1) [] target.1.tree).2

/-- No two blobs, packs, indexes or snapshots that take part have one ID, and the new index does
not have the ID of one that was superseded. -/
structure FilterNoClash (C : Codec Id) (ids : Ids Id) (cores : Nat) (w : World Id) (src : Source Id)
    (target : Snap Id) (filter : Path → Bool) (plan : Plan Id) : Prop where
  blobs : Unmixed C (fun b => Has C w.repo b ∨ b ∈ filterTrees C src target filter)
  packs : PacksDiffer ids w plan.main
  indexes : IndexOk (liveCfg ids cores plan.start) w.repo (sends plan.main)
  snaps : ∀ sn, .putSnap sn ∈ plan.posts → ∀ sn', (ids.snapId sn, sn') ∈ w.repo.snapshots → sn' = sn

variable {ids : Ids Id} {cores : Nat} {w : World Id} {target : Snap Id} {plan : Plan Id} {a : FilterArgs}

theorem stored_noWip (h : FilterOk C ids w src target) {b : Blob Id} : Stored (noWip w) b ↔ Has C w.repo b := by
  constructor
  · rintro ⟨p, bs, (⟨h1, h2⟩ | ⟨x, hx, _⟩), hb⟩
    · exact ⟨h.healthy.hashes p bs b h1 h2 hb, p, bs, h1, h2, hb⟩
    · cases hx
  · rintro ⟨_, p, bs, h1, h2, h3⟩
    exact ⟨p, bs, .inl ⟨h1, h2⟩, h3⟩

theorem leftover_noWip (h : FilterOk C ids w src target) : Leftover C ids (noWip w) := by
  refine ⟨h.names, by simp [noWip], by simp [noWip], by simp [noWip], ?_⟩
  refine h.healthy.sound.ledger.mono ?_
  rintro p bs (h | ⟨x, h, _⟩)
  · exact h
  · cases h

theorem resume_noWip (w : World Id) : resumeFrom (noWip w) = .ok (Index.empty, []) := rfl

/-- A walk of a readable snapshot all of whose chunks are packed. -/
theorem filterWalk_ok (h : FilterOk C ids w src target) (filter : Path → Bool) {F cache : Forest Id}
    (hF : forestFromRoot C src target.1.tree (newTreeCache C) = .ok (F, cache))
    {known : BMap Id Unit} (hk : Index.blobIds src.index = .ok known) :
    ∃ d L root, Holds C w.repo target.1.tree d ∧ RepackedAs C w.repo filter target.1.tree d L root ∧
      root = (filterTree C filter F (F.length + 1) [] target.1.tree).1 ∧
      (∀ b, b ∈ L ∧ b.kind = .tree ↔ b ∈ (filterTree C filter F (F.length + 1) [] target.1.tree).2) ∧
      filterWalk C filter F (F.length + 1) [] target.1.tree ⟨BMap.keys known, []⟩ =
        .ok (root, L.foldl offer ⟨BMap.keys known, []⟩) := by
  have hS := h.healthy.sound
  obtain ⟨d, hd⟩ := h.healthy.readable _ _ h.loaded
  have hFo : ForestOf C w.repo target.1.tree F := C23.forest_exact hS h.opens _ _ F cache newTreeCache_ok hF
  have he : C33.EnvOk (Id := Id) ⟨fun n => n, C33.oldest⟩ := ⟨C33.oldest_min, strictMono_id⟩
  obtain ⟨L, root, ⟨h1, h2, h3⟩, h4⟩ := repackTree_ok he hS h.opens filter hFo hd
  obtain ⟨r', h5, _⟩ := h4 ⟨BMap.keys known, []⟩ ReaderState.new C33.settled_new
  refine ⟨d, L, root, hd, h1, h2, h3, ?_⟩
  refine (filterWalk_of _ _ _ _ _ _ _ _ ?_ h5).1
  intro id t ht c hc
  obtain ⟨h6, h7⟩ := (hFo id t).mp ht
  obtain ⟨_, d', t', ht', hd'⟩ := reaches_kept hS (fun b hb => .inl hb) h6 hd
  obtain rfl := hS.treeAt_one h7 ht'
  obtain ⟨x, hx⟩ := holds_chunk hd' hc
  have := (packed_iff (w := noWip w) h.healthy.sound (leftover_noWip h) h.opens hk (resume_noWip w) c).mpr
    ⟨_, (stored_noWip h).mpr hx, rfl⟩
  simpa [listedIds, Index.empty] using this

/-- What a plan of filter-snapshot is. -/
theorem filterPlan_ok (h : FilterOk C ids w src target) (hp : filterPlan C src target filter a = .ok plan) :
    ∃ F cache known d L root, forestFromRoot C src target.1.tree (newTreeCache C) = .ok (F, cache) ∧
      Index.blobIds src.index = .ok known ∧
      Holds C w.repo target.1.tree d ∧ RepackedAs C w.repo filter target.1.tree d L root ∧
      root = (filterTree C filter F (F.length + 1) [] target.1.tree).1 ∧
      (∀ b, b ∈ L ∧ b.kind = .tree ↔ b ∈ (filterTree C filter F (F.length + 1) [] target.1.tree).2) ∧
      plan.start = Index.empty ∧
      plan.main = mainOf [] (L.foldl offer ⟨BMap.keys known, []⟩).sent ∧
      plan.posts = (if root = target.1.tree then []
        else if a.dryRun then [] else [.putSnap (filteredSnap a target.1 root)]) := by
  unfold filterPlan at hp
  split at hp
  · cases hp
  · rename_i F cache hF
    split at hp
    · cases hp
    · rename_i known hk
      obtain ⟨d, L, root, h1, h2, h3, h4, h5⟩ := filterWalk_ok h filter hF hk
      rw [h5] at hp
      cases hp
      exact ⟨F, cache, known, d, L, root, hF, hk, h1, h2, h3, h4, rfl, rfl, rfl⟩

theorem filter_succeeds (h : FilterOk C ids w src target) (filter : Path → Bool) (a : FilterArgs) :
    ∃ plan, filterPlan C src target filter a = .ok plan := by
  have hS := h.healthy.sound
  obtain ⟨d, hd⟩ := h.healthy.readable _ _ h.loaded
  obtain ⟨F, cache, hF, _⟩ := holds_forest hS h.opens hd newTreeCache_ok
  have hblob : (blobsListed src.index.packs).Nodup := (C18.refused_iff src.index).1.mp ⟨_, h.opens.blobMap⟩
  obtain ⟨known, hk⟩ := (C18.refused_iff src.index).2.1.mpr hblob
  obtain ⟨_, L, root, _, _, _, _, h5⟩ := filterWalk_ok h filter hF hk
  unfold filterPlan
  simp only [hF, hk, h5]
  exact ⟨_, rfl⟩

/-- What it sends is new, and with what is there is all the new trees. -/
theorem filter_fresh (h : FilterOk C ids w src target)
    (hN : FilterNoClash C ids cores w src target filter plan) {F cache : Forest Id}
    (hF : forestFromRoot C src target.1.tree (newTreeCache C) = .ok (F, cache))
    {known : BMap Id Unit} (hk : Index.blobIds src.index = .ok known) {d : Dir Bytes} {L : List (Blob Id)}
    {root : Id} (hrep : RepackedAs C w.repo filter target.1.tree d L root)
    (hL : ∀ b, b ∈ L ∧ b.kind = .tree ↔ b ∈ (filterTree C filter F (F.length + 1) [] target.1.tree).2) :
    Fresh C (Counts (noWip w)) (L.foldl offer ⟨BMap.keys known, []⟩).sent ∧
    ∀ b ∈ L, Stored (noWip w) b ∨ b ∈ (L.foldl offer ⟨BMap.keys known, []⟩).sent := by
  refine offer_fresh (leftover_noWip h) ?_ (fun b hb => (hrep.made b hb).1) ?_
  · intro i
    have := packed_iff (w := noWip w) h.healthy.sound (leftover_noWip h) h.opens hk (resume_noWip w) i
    simpa [listedIds, Index.empty] using this
  · have hsub : ∀ b, (Stored (noWip w) b ∨ b ∈ L) → (Has C w.repo b ∨ b ∈ filterTrees C src target filter) := by
      rintro b (hb | hb)
      · exact .inl ((stored_noWip h).mp hb)
      · cases hkd : b.kind with
        | chunk => exact .inl ((hrep.made b hb).2 hkd)
        | tree =>
          right
          unfold filterTrees
          rw [hF]
          exact (hL b).mp ⟨hb, hkd⟩
    exact ⟨fun b b' hb hb' => hN.blobs.hash b b' (hsub b hb) (hb'.imp (hsub b') (fun e => e)),
      fun b b' hb hb' => hN.blobs.kind b b' (hsub b hb) (hsub b' hb')⟩

/-- What it does up to the join. -/
theorem filter_run (h : FilterOk C ids w src target)
    (hN : FilterNoClash C ids cores w src target filter plan)
    (hp : filterPlan C src target filter a = .ok plan) {s : State Id}
    (hs : Reachable (liveCfg ids cores plan.start) w plan.main s) :
    Healthy C ids s.world.repo ∧ s.world.repo.snapshots = w.repo.snapshots ∧
    (∀ b, Has C w.repo b → Has C s.world.repo b) ∧
    ∃ F cache d root, forestFromRoot C src target.1.tree (newTreeCache C) = .ok (F, cache) ∧
      Holds C w.repo target.1.tree d ∧
      root = (filterTree C filter F (F.length + 1) [] target.1.tree).1 ∧
      ((∀ p, filter p = true) → root = target.1.tree) ∧
      plan.posts = (if root = target.1.tree then []
        else if a.dryRun then [] else [.putSnap (filteredSnap a target.1 root)]) ∧
      (s.joined = true → Holds C s.world.repo root (keep filter (fun n => [n]) d) ∧
        ∀ b ∈ (filterTree C filter F (F.length + 1) [] target.1.tree).2,
          WellMade C b ∧ b.kind = .tree ∧ Has C s.world.repo b) := by
  obtain ⟨F, cache, known, d, L, root, hF, hk, hd, hrep, hroot, hL, hstart, hmain, hposts⟩ := filterPlan_ok h hp
  obtain ⟨hfresh, hall⟩ := filter_fresh h hN hF hk hrep hL
  obtain ⟨v, hs', _⟩ := reachable_noWip rfl (by show plan.start.isEmpty = true; rw [hstart]; rfl) hs
  have hpk := hN.packs
  have hix := hN.indexes
  rw [hmain] at hpk hs'
  rw [hmain, sends_mainOf] at hix
  rw [hstart] at hix hs'
  obtain ⟨g1, _, g3, g4, g5⟩ := add_run (w := noWip w) h.healthy (leftover_noWip h) (resume_noWip w) hfresh hpk hix hs'
  refine ⟨g1, g3, g4, F, cache, d, root, hF, hd, hroot, hrep.same, hposts, fun hj => ?_⟩
  have hhas : ∀ b ∈ L, Has C s.world.repo b := by
    intro b hb
    refine g5 hj b ?_
    rcases hall b hb with ⟨p, bs, h1, h2⟩ | h1
    · exact .inr ⟨p, bs, h1, h2⟩
    · exact .inl h1
  refine ⟨hrep.holds _ (fun b hb => .inr (hhas b hb)), fun b hb => ?_⟩
  obtain ⟨h1, h2⟩ := (hL b).mpr hb
  exact ⟨(hrep.made b h1).1, h2, hhas b h1⟩

/-- What it leaves at any instant up to the join, the next command can resume, if that was so before. -/
theorem filter_left (h : FilterOk C ids w src target) (hL0 : Leftover C ids w)
    (hN : FilterNoClash C ids cores w src target filter plan)
    (hp : filterPlan C src target filter a = .ok plan) {s : State Id}
    (hs : Reachable (liveCfg ids cores plan.start) w plan.main s) : Leftover C ids s.world := by
  obtain ⟨F, cache, known, d, L, root, hF, hk, hd, hrep, hroot, hL, hstart, hmain, hposts⟩ := filterPlan_ok h hp
  obtain ⟨hfresh, hall⟩ := filter_fresh h hN hF hk hrep hL
  obtain ⟨v, hs', hst⟩ := reachable_noWip rfl (by show plan.start.isEmpty = true; rw [hstart]; rfl) hs
  have hpk := hN.packs
  have hix := hN.indexes
  rw [hmain] at hpk hs' hs
  rw [hmain, sends_mainOf] at hix
  rw [hstart] at hix hs' hs
  obtain ⟨_, g2, _⟩ := add_run (w := noWip w) h.healthy (leftover_noWip h) (resume_noWip w) hfresh hpk hix hs'
  rcases hst with rfl | ⟨rfl, hw, hu⟩
  · exact g2
  generalize hss : (L.foldl offer ⟨BMap.keys known, []⟩).sent = ss at *
  have hn' : (∀ y, s.ix ≠ .exited (some y)) := by
    intro y hy
    rw [hy] at hu
    rcases hu with ⟨y, h⟩ | ⟨y, h, _⟩ | h | h <;> cases h
  have hi : s.world.repo.indexes = w.repo.indexes := (filed rfl hs).notYet hn'
  have hr := runOk_add (cores := cores) (w := noWip w) h.healthy.sound h.healthy.pack_names (leftover_noWip h) (resume_noWip w) hfresh hpk
  have h' : Reachable ⟨ids, true, cores, Index.empty, Involved (noWip w) (mainOf [] ss)⟩ (noWip w) (mainOf [] ss)
      (setWip s none) := reachable_allowed (c := liveCfg ids cores Index.empty)
        (c' := ⟨ids, true, cores, Index.empty, Involved (noWip w) (mainOf [] ss)⟩)
        rfl rfl rfl rfl (fun cur hc => .inr (.inr hc)) hs'
  have hn := named hr.world h'
  have hgood : ∀ p bs, (p, bs) ∈ s.world.cwd.packs ∨ (p, bs) ∈ s.world.repo.packs →
      Good ⟨ids, true, cores, Index.empty, Involved (noWip w) (mainOf [] ss)⟩ p bs := by
    rintro p bs (h1 | h1)
    · exact hn.cwd _ _ h1
    · exact hn.repo _ _ h1
  have hgood0 : ∀ p bs, (p, bs) ∈ w.cwd.packs ∨ (p, bs) ∈ w.repo.packs →
      Good ⟨ids, true, cores, Index.empty, Involved (noWip w) (mainOf [] ss)⟩ p bs := by
    rintro p bs (h1 | h1)
    · exact hr.world.cwd _ _ h1
    · exact hr.world.repo _ _ h1
  have hkept := Pipeline.wip (c := liveCfg ids cores Index.empty) rfl
    (fun x hx p hp => by
      obtain ⟨m, hm⟩ := BMap.mem_keys_iff.mp hp
      obtain ⟨bs, hb, _⟩ := hL0.there x p m hx (BMap.mem_of_get? hm)
      exact hb.imp BMap.mem_keys_of_mem BMap.mem_keys_of_mem) (fun p hp => by cases hp) hs
  refine ⟨g2.names, fun x hx => by rw [hi]; exact hL0.sup x (hw ▸ hx), fun x hx => hL0.sorted x (hw ▸ hx), ?_, hL0.ledger.mono ?_⟩
  · intro x p m hx hm
    obtain ⟨cs, hc, rfl⟩ := hL0.there x p m (hw ▸ hx) hm
    have : ∃ bs, ((p, bs) ∈ s.world.cwd.packs ∨ (p, bs) ∈ s.world.repo.packs) := by
      rcases hkept.wip x hx p (BMap.mem_keys_of_mem hm) with hk | hk
      · obtain ⟨bs, hb⟩ := BMap.mem_keys_iff.mp hk
        exact ⟨bs, .inl (BMap.mem_of_get? hb)⟩
      · obtain ⟨bs, hb⟩ := BMap.mem_keys_iff.mp hk
        exact ⟨bs, .inr (BMap.mem_of_get? hb)⟩
    obtain ⟨bs, hb⟩ := this
    have := Good_unique hr.inj (hgood0 p cs hc) (hgood p bs hb)
    subst this
    exact ⟨cs, hb, rfl⟩
  · rintro p bs (⟨h1, h2⟩ | ⟨x, h1, h2, h3⟩)
    · rw [hi] at h1
      obtain ⟨cs, hc, _⟩ := h.healthy.present p _ h1
      have := Good_unique hr.inj (hgood0 p cs (.inr hc)) (hgood p bs (.inr h2))
      subst this
      exact .inl ⟨h1, hc⟩
    · rw [hw] at h1
      obtain ⟨cs, hc, _⟩ := hL0.there x p _ h1 h2
      have := Good_unique hr.inj (hgood0 p cs hc) (hgood p bs h3)
      subst this
      exact .inr ⟨x, h1, h2, hc⟩

end Backpak
