import Verif.Model.Rebuild
import Verif.Lemmas.DemoPrune
import Verif.Props.C18

/-!
# C28 - Rebuilding the index makes every pack findable and loses nothing
-/

namespace Backpak.C28

open Spec Rebuild

variable {Id : Type} [LinearOrder Id] {C : Codec Id} {ids : Ids Id} {live : Bool}

/-- An index of every pack, replacing every index. -/
def whole (R : Repo Id) : Index Id := ⟨BMap.keys R.indexes, R.packs.map fun e => (e.1, Pack.manifestOf e.2)⟩

/-- The new index does not have the ID of one that is there or superseded. Since it names every
index that is there, the contrary would be a hash inside its own preimage. -/
def NewName (ids : Ids Id) (R : Repo Id) : Prop :=
  ids.indexId (whole R) ∉ BMap.keys R.indexes ∧ ¬ Superseded R.indexes (ids.indexId (whole R))

/-! ## What a run has gathered -/

/-- The phase's index, and whether it is complete. -/
def Phase.index : Phase Id → Option (Index Id)
  | .gather x | .wrote x | .copied x | .stored x | .uploaded x => some x
  | .dead => none

/-- What has been read so far, and what is still to be read, are the packs. -/
structure Gather (R : Repo Id) (s : Rebuild.State Id) (x : Index Id) : Prop where
  sup : x.supersedes = BMap.keys R.indexes
  sorted : BMap.Sorted x.packs
  from_packs : ∀ e ∈ s.queue ++ x.packs, ∃ bs, (e.1, bs) ∈ R.packs ∧ e.2 = Pack.manifestOf bs
  todo_packs : ∀ p ∈ s.todo, p ∈ BMap.keys R.packs
  all : ∀ p ∈ BMap.keys R.packs, p ∈ s.todo ∨ p ∈ s.queue.map Prod.fst ∨ p ∈ BMap.keys x.packs
  nodup : (s.todo ++ s.queue.map Prod.fst ++ BMap.keys x.packs).Nodup

/-- What it leaves in the working directory. -/
def leftBy (ids : Ids Id) (w : World Id) : Cwd Id :=
  ⟨some (whole w.repo), w.cwd.packs,
    BMap.erase (ids.indexId (whole w.repo)) (BMap.insert (ids.indexId (whole w.repo)) (whole w.repo) w.cwd.indexes)⟩

/-- The invariant of a run. -/
def Inv (ids : Ids Id) (w : World Id) (s : Rebuild.State Id) : Prop :=
  match s.phase with
  | .gather x => s.world = w ∧ Gather w.repo s x
  | .wrote x => x = whole w.repo ∧ s.world = ⟨w.repo, { w.cwd with wip := some x }⟩
  | .copied x => x = whole w.repo ∧ s.world.repo = w.repo ∧
      s.world.cwd = ⟨some x, w.cwd.packs, BMap.insert (ids.indexId x) x w.cwd.indexes⟩
  | .stored x => x = whole w.repo ∧
      s.world.cwd = ⟨some x, w.cwd.packs, BMap.insert (ids.indexId x) x w.cwd.indexes⟩ ∧
      s.world.repo = { w.repo with indexes := BMap.insert (ids.indexId x) x w.repo.indexes }
  | .uploaded x => x = whole w.repo ∧ s.world.cwd = leftBy ids w ∧
      (s.world.repo = w.repo ∨
        s.world.repo = { w.repo with indexes := BMap.insert (ids.indexId x) x w.repo.indexes })
  | .dead => False

theorem keys_whole (R : Repo Id) : BMap.keys (whole R).packs = BMap.keys R.packs := by
  simp [whole, BMap.keys, List.map_map, Function.comp_def]

theorem mem_whole {R : Repo Id} {p : Id} {m : Manifest Id} :
    (p, m) ∈ (whole R).packs ↔ ∃ bs, (p, bs) ∈ R.packs ∧ m = Pack.manifestOf bs := by
  simp only [whole, List.mem_map, Prod.mk.injEq]
  constructor
  · rintro ⟨⟨q, bs⟩, h, rfl, rfl⟩; exact ⟨bs, h, rfl⟩
  · rintro ⟨bs, h, rfl⟩; exact ⟨(p, bs), h, rfl, rfl⟩

theorem sorted_whole {R : Repo Id} (hp : BMap.Sorted R.packs) : BMap.Sorted (whole R).packs := by
  unfold BMap.Sorted
  rw [keys_whole]
  exact hp

/-- When all is read, the index is whole. -/
theorem gathered {R : Repo Id} (hp : BMap.Sorted R.packs) {s : Rebuild.State Id} {x : Index Id} (h : Gather R s x)
    (h1 : s.todo = []) (h2 : s.queue = []) : x = whole R := by
  have hpk : x.packs = (whole R).packs := by
    refine BMap.ext_get? h.sorted (sorted_whole hp) (fun p => ?_)
    have key : ∀ m, (p, m) ∈ x.packs ↔ (p, m) ∈ (whole R).packs := by
      intro m
      rw [mem_whole]
      constructor
      · intro hm
        exact h.from_packs (p, m) (List.mem_append_right _ hm)
      · rintro ⟨bs, hb, rfl⟩
        rcases h.all p (BMap.mem_keys_of_mem hb) with h3 | h3 | h3
        · rw [h1] at h3; cases h3
        · rw [h2] at h3; cases h3
        · obtain ⟨m', hm'⟩ := BMap.mem_keys_iff.mp h3
          have hm' := BMap.mem_of_get? hm'
          obtain ⟨bs', hb', h4⟩ := h.from_packs _ (List.mem_append_right _ hm')
          simp only at hb' h4
          have e1 := (BMap.get?_eq_some_iff hp).mpr hb
          rw [(BMap.get?_eq_some_iff hp).mpr hb'] at e1
          cases e1
          rw [← h4]
          exact hm'
    cases hg : (whole R).packs.get? p with
    | none =>
      cases hx : x.packs.get? p with
      | none => rfl
      | some m =>
        have := (BMap.get?_eq_some_iff (sorted_whole hp)).mpr ((key m).mp (BMap.mem_of_get? hx))
        rw [hg] at this
        cases this
    | some m => exact (BMap.get?_eq_some_iff h.sorted).mpr ((key m).mpr (BMap.mem_of_get? hg))
  cases x with
  | mk sup packs =>
    have := h.sup
    simp only at this hpk
    subst this hpk
    rfl

theorem inv_init (w : World Id) (hp : BMap.Sorted w.repo.packs) : Inv ids w (Rebuild.init w) := by
  refine ⟨rfl, rfl, BMap.sorted_nil, by simp [Rebuild.init, fresh], fun p h => h, fun p h => .inl h, ?_⟩
  simpa [Rebuild.init, fresh, BMap.keys] using hp.nodup

theorem inv_step {w : World Id} (hp : BMap.Sorted w.repo.packs) {s t : Rebuild.State Id}
    (hi : Inv ids w s) (h : Rebuild.Step ids live s t) : Inv ids w t := by
  cases h with
  | read pre p post bs h1 h2 =>
    cases hph : s.phase with
    | gather x =>
      simp only [Inv, hph] at hi ⊢
      obtain ⟨hw, hg⟩ := hi
      refine ⟨hw, hg.sup, hg.sorted, ?_, ?_, ?_, ?_⟩
      · intro e he
        simp only [List.append_assoc, List.mem_append, List.mem_singleton] at he
        rcases he with he | rfl | he
        · exact hg.from_packs e (List.mem_append_left _ he)
        · rw [hw] at h2
          exact ⟨bs, BMap.mem_of_get? h2, rfl⟩
        · exact hg.from_packs e (List.mem_append_right _ he)
      · intro q hq
        refine hg.todo_packs q ?_
        rw [h1]
        simp only [List.mem_append, List.mem_cons] at hq ⊢
        tauto
      · intro q hq
        have := hg.all q hq
        rw [h1] at this
        simp only [List.mem_append, List.mem_cons, List.map_append, List.map_cons, List.map_nil] at this ⊢
        tauto
      · have := hg.nodup
        rw [h1] at this
        refine (List.Perm.nodup_iff ?_).mp this
        simp only [List.map_append, List.map_cons, List.map_nil, List.append_assoc, List.cons_append, List.nil_append]
        refine List.Perm.append_left pre ?_
        refine (List.perm_middle (a := p) (l₁ := []) ).trans ?_
        rw [List.nil_append]
        have : p :: (post ++ (s.queue.map Prod.fst ++ BMap.keys x.packs)) =
            p :: ((post ++ s.queue.map Prod.fst) ++ BMap.keys x.packs) := by simp
        rw [this]
        refine List.perm_middle.symm.trans ?_
        simp
    | wrote x =>
      simp only [Inv, hph] at hi ⊢
      exact hi
    | copied x =>
      simp only [Inv, hph] at hi ⊢
      exact hi
    | stored x =>
      simp only [Inv, hph] at hi ⊢
      exact hi
    | uploaded x =>
      simp only [Inv, hph] at hi ⊢
      exact hi
    | dead =>
      simp only [Inv, hph] at hi
  | recv p m q x h1 h2 h3 =>
    simp only [Inv, h2] at hi ⊢
    obtain ⟨hw, hg⟩ := hi
    refine ⟨hw, hg.sup, BMap.sorted_insert hg.sorted p m, ?_, hg.todo_packs, ?_, ?_⟩
    · rintro ⟨k, v⟩ he
      rcases List.mem_append.mp he with he | he
      · exact hg.from_packs _ (List.mem_append_left _ (by rw [h1]; exact List.mem_cons_of_mem _ he))
      · rcases BMap.mem_insert_of he with ⟨rfl, rfl⟩ | he
        · exact hg.from_packs _ (List.mem_append_left _ (by rw [h1]; exact List.mem_cons_self))
        · exact hg.from_packs _ (List.mem_append_right _ he)
    · intro r hr
      have := hg.all r hr
      rw [h1] at this
      simp only [List.map_cons, List.mem_cons] at this
      rw [BMap.keys_insert_mem]
      tauto
    · have := hg.nodup
      rw [h1] at this
      have hperm : (BMap.keys (BMap.insert p m x.packs)).Perm (p :: BMap.keys x.packs) := by
        refine (List.perm_ext_iff_of_nodup (BMap.sorted_insert hg.sorted p m).nodup
          (List.nodup_cons.mpr ⟨h3, hg.sorted.nodup⟩)).mpr (fun r => ?_)
        rw [BMap.keys_insert_mem, List.mem_cons]
      refine (List.Perm.nodup_iff ?_).mp this
      refine List.Perm.trans ?_ (hperm.symm.append_left _)
      simp only [List.map_cons, List.append_assoc, List.cons_append]
      refine List.Perm.append_left _ ?_
      exact List.perm_middle.symm
  | recvDup p m q x h1 h2 h3 =>
    simp only [Inv, h2] at hi
    obtain ⟨hw, hg⟩ := hi
    have := hg.nodup
    rw [h1] at this
    exfalso
    rw [List.nodup_append] at this
    exact this.2.2 p (by simp) p h3 rfl
  | write x h1 h2 h3 h4 =>
    simp only [Inv, h3] at hi ⊢
    obtain ⟨hw, hg⟩ := hi
    exact ⟨gathered hp hg h1 h2, by rw [hw]⟩
  | copy x h1 =>
    simp only [Inv, h1] at hi ⊢
    obtain ⟨h2, h3⟩ := hi
    exact ⟨h2, by rw [h3], by rw [h3]⟩
  | store x h1 h2 =>
    simp only [Inv, h1] at hi ⊢
    obtain ⟨h2, h3, h4⟩ := hi
    exact ⟨h2, h4, by simp only [Pipeline.putItem, h3]⟩
  | drop x h1 =>
    simp only [Inv, h1] at hi ⊢
    obtain ⟨rfl, h3, h4⟩ := hi
    exact ⟨rfl, by simp only [Pipeline.dropItem, h3, leftBy], .inr h4⟩
  | move x h1 h2 =>
    simp only [Inv, h1] at hi ⊢
    obtain ⟨rfl, h3, h4⟩ := hi
    exact ⟨rfl, by simp only [Pipeline.dropItem, h4, leftBy], .inr (by simp only [Pipeline.putItem, h3])⟩
  | discard x h1 h2 =>
    simp only [Inv, h1] at hi ⊢
    obtain ⟨rfl, h3, h4⟩ := hi
    exact ⟨rfl, by simp only [Pipeline.dropItem, h4, leftBy], .inl h3⟩

theorem inv {w : World Id} (hp : BMap.Sorted w.repo.packs) {s : Rebuild.State Id}
    (h : Rebuild.Reachable ids live w s) : Inv ids w s := by
  induction h with
  | refl => exact inv_init w hp
  | tail _ hs ih => exact inv_step hp ih hs

/-- Whether the index has been put depends on the phase and the mode. -/
theorem put_iff {w : World Id} {s : Rebuild.State Id} (h : Rebuild.Reachable ids live w s) :
    (live = false → s.world.repo = w.repo) ∧
    (∀ x, s.phase = .uploaded x → live = true → ids.indexId x ∈ BMap.keys s.world.repo.indexes) ∧
    (∀ x, s.phase = .stored x → live = true ∧ ids.indexId x ∈ BMap.keys s.world.repo.indexes) := by
  induction h with
  | refl => exact ⟨fun _ => rfl, by simp [Rebuild.init], by simp [Rebuild.init]⟩
  | tail _ hs ih =>
    obtain ⟨h1, h2, h3⟩ := ih
    cases hs with
    | read => exact ⟨h1, h2, h3⟩
    | recv => exact ⟨h1, by simp, by simp⟩
    | recvDup => exact ⟨h1, by simp, by simp⟩
    | write => exact ⟨h1, by simp, by simp⟩
    | copy => exact ⟨h1, by simp, by simp⟩
    | store x h4 h5 =>
      refine ⟨by simp [h5], by simp, ?_⟩
      intro y hy
      cases hy
      exact ⟨h5, BMap.keys_insert_mem.mpr (.inl rfl)⟩
    | drop x h4 =>
      refine ⟨h1, ?_, by simp⟩
      intro y hy _
      cases hy
      exact (h3 x h4).2
    | move x h4 h5 =>
      refine ⟨by simp [h5], ?_, by simp⟩
      intro y hy _
      cases hy
      exact BMap.keys_insert_mem.mpr (.inl rfl)
    | discard x h4 h5 => exact ⟨h1, by simp [h5], by simp⟩

/-! ## What is on disk -/

/-- What can be on disk: the repository as it was, or that with the new index, and maybe some of
the old ones gone. -/
inductive OnDisk (ids : Ids Id) (R : Repo Id) : Repo Id → Prop
  | same : OnDisk ids R R
  | put (gone : List Id) : (∀ i ∈ gone, i ∈ BMap.keys R.indexes) →
      OnDisk ids R ⟨R.packs,
        gone.foldl (fun m i => BMap.erase i m) (BMap.insert (ids.indexId (whole R)) (whole R) R.indexes), R.snapshots⟩

theorem foldl_rm (gone : List Id) (R : Repo Id) :
    (gone.map Pipeline.Post.rmIndex).foldl (Pipeline.applyPost ids) R =
      { R with indexes := gone.foldl (fun m i => BMap.erase i m) R.indexes } := by
  induction gone generalizing R with
  | nil => rfl
  | cons i gone ih => simp only [List.map_cons, List.foldl_cons, ih]; rfl

theorem onDisk {w w' : World Id} (hp : BMap.Sorted w.repo.packs) (hnew : NewName ids w.repo)
    (h : Rebuild.Instant ids live w w') :
    OnDisk ids w.repo w'.repo ∧ (live = false → w'.repo = w.repo) := by
  cases h with
  | during s hs =>
    refine ⟨?_, (put_iff hs).1⟩
    have hi := inv hp hs
    cases hph : s.phase with
    | gather x => simp only [Inv, hph] at hi; rw [hi.1]; exact .same
    | wrote x => simp only [Inv, hph] at hi; rw [hi.2]; exact .same
    | copied x => simp only [Inv, hph] at hi; rw [hi.2.1]; exact .same
    | stored x =>
      simp only [Inv, hph] at hi
      obtain ⟨rfl, _, h⟩ := hi
      rw [h]
      exact .put [] (by simp)
    | uploaded x =>
      simp only [Inv, hph] at hi
      obtain ⟨rfl, _, h | h⟩ := hi
      · rw [h]; exact .same
      · rw [h]; exact .put [] (by simp)
    | dead => simp only [Inv, hph] at hi
  | after s x done rest hs hph hd =>
    have hi := inv hp hs
    simp only [Inv, hph] at hi
    obtain ⟨rfl, _, h⟩ := hi
    cases live with
    | false =>
      unfold posts at hd
      simp only [Bool.false_eq_true, if_false] at hd
      obtain ⟨rfl, rfl⟩ := List.append_eq_nil_iff.mp hd.symm
      have := (put_iff hs).1 rfl
      simp only [List.foldl_nil]
      rw [this]
      exact ⟨.same, fun _ => rfl⟩
    | true =>
      refine ⟨?_, by simp⟩
      have hin := (put_iff hs).2.1 _ hph rfl
      have h : s.world.repo = ⟨w.repo.packs,
          BMap.insert (ids.indexId (whole w.repo)) (whole w.repo) w.repo.indexes, w.repo.snapshots⟩ := by
        rcases h with h | h
        · rw [h] at hin
          exact absurd hin hnew.1
        · exact h
      unfold posts at hd
      simp only [if_true] at hd
      obtain ⟨gone, rest', e1, rfl, _⟩ := List.map_eq_append_iff.mp hd
      rw [foldl_rm, h]
      exact .put gone (fun i hi => by rw [e1]; exact List.mem_append_left _ hi)

theorem mem_erased (gone : List Id) (m : BMap Id (Index Id)) (j : Id) (y : Index Id) :
    (j, y) ∈ gone.foldl (fun m i => BMap.erase i m) m ↔ (j, y) ∈ m ∧ j ∉ gone := by
  induction gone generalizing m with
  | nil => simp
  | cons i gone ih =>
    rw [List.foldl_cons, ih, BMap.mem_erase_iff, List.mem_cons]
    tauto

/-- Once the new index is there, it is the only one that counts. -/
theorem listed_put {R : Repo Id} (hs : BMap.Sorted R.indexes) (hnew : NewName ids R) (gone : List Id)
    (hg : ∀ i ∈ gone, i ∈ BMap.keys R.indexes) (p : Id) (m : Manifest Id) :
    Listed (gone.foldl (fun m i => BMap.erase i m) (BMap.insert (ids.indexId (whole R)) (whole R) R.indexes)) p m ↔
      ∃ bs, (p, bs) ∈ R.packs ∧ m = Pack.manifestOf bs := by
  have hmem := fun j y => (mem_erased gone (BMap.insert (ids.indexId (whole R)) (whole R) R.indexes) j y)
  have hin : (ids.indexId (whole R), whole R) ∈
      gone.foldl (fun m i => BMap.erase i m) (BMap.insert (ids.indexId (whole R)) (whole R) R.indexes) :=
    (hmem _ _).mpr ⟨(BMap.mem_insert_iff hs).mpr (.inl ⟨rfl, rfl⟩), fun h => hnew.1 (hg _ h)⟩
  rw [← mem_whole]
  constructor
  · rintro ⟨j, y, ⟨h1, h2⟩, h3⟩
    rcases (BMap.mem_insert_iff hs).mp ((hmem j y).mp h1).1 with ⟨rfl, rfl⟩ | ⟨_, h4⟩
    · exact h3
    · exact absurd ⟨_, _, hin, BMap.mem_keys_of_mem h4⟩ h2
  · intro h
    refine ⟨_, _, ⟨hin, ?_⟩, h⟩
    rintro ⟨j, y, h1, h2⟩
    rcases (BMap.mem_insert_iff hs).mp ((hmem j y).mp h1).1 with ⟨rfl, rfl⟩ | ⟨_, h4⟩
    · exact hnew.1 h2
    · exact hnew.2 ⟨j, y, h4, h2⟩

/-- At every instant, whatever order packs are read in: no pack or snapshot has changed, and
every blob that could be found before still can be. -/
theorem findable_stays (w w' : World Id) (hp : BMap.Sorted w.repo.packs) (hx : BMap.Sorted w.repo.indexes)
    (hnew : NewName ids w.repo) (h : Rebuild.Instant ids live w w') :
    w'.repo.packs = w.repo.packs ∧ w'.repo.snapshots = w.repo.snapshots ∧
    ∀ b, Has C w.repo b → Has C w'.repo b := by
  obtain ⟨hd, _⟩ := onDisk hp hnew h
  generalize w'.repo = R' at hd
  cases hd with
  | same => exact ⟨rfl, rfl, fun b hb => hb⟩
  | put gone hg =>
    refine ⟨rfl, rfl, ?_⟩
    rintro b ⟨h1, p, bs, _, h3, h4⟩
    exact ⟨h1, p, bs, (listed_put hx hnew gone hg p _).mpr ⟨bs, h3, rfl⟩, h3, h4⟩

/-- So every snapshot that could be read can be. -/
theorem readable_stays (w w' : World Id) (hp : BMap.Sorted w.repo.packs) (hx : BMap.Sorted w.repo.indexes)
    (hnew : NewName ids w.repo) (h : Rebuild.Instant ids live w w') (sn : Snapshot Id)
    (hr : Readable C w.repo sn) : Readable C w'.repo sn := by
  obtain ⟨d, hd⟩ := hr
  exact ⟨d, has_mono_holds (findable_stays w w' hp hx hnew h).2.2 hd⟩

/-- A dry run changes nothing in the repository. -/
theorem dry_nothing (w w' : World Id) (hp : BMap.Sorted w.repo.packs) (hnew : NewName ids w.repo)
    (h : Rebuild.Instant ids false w w') : w'.repo = w.repo := (onDisk hp hnew h).2 rfl

theorem finished_repo {w w' : World Id} (hp : BMap.Sorted w.repo.packs) (hx : BMap.Sorted w.repo.indexes)
    (hnew : NewName ids w.repo) (h : Rebuild.Finished ids true w w') :
    w'.repo = { w.repo with indexes := [(ids.indexId (whole w.repo), whole w.repo)] } ∧
    w'.cwd = leftBy ids w := by
  cases h with
  | mk s x hs hph =>
    have hi := inv hp hs
    simp only [Inv, hph] at hi
    obtain ⟨rfl, hwip, h⟩ := hi
    have hin := (put_iff hs).2.1 _ hph rfl
    have h : s.world.repo = ⟨w.repo.packs,
        BMap.insert (ids.indexId (whole w.repo)) (whole w.repo) w.repo.indexes, w.repo.snapshots⟩ := by
      rcases h with h | h
      · rw [h] at hin
        exact absurd hin hnew.1
      · exact h
    refine ⟨?_, hwip⟩
    unfold posts
    simp only [if_true]
    rw [foldl_rm, h]
    simp only [Repo.mk.injEq, true_and, and_true]
    refine BMap.ext_get? ?_ ?_ ?_
    · have : ∀ (gone : List Id) (m : BMap Id (Index Id)), BMap.Sorted m →
          BMap.Sorted (gone.foldl (fun m i => BMap.erase i m) m) := by
        intro gone
        induction gone with
        | nil => exact fun m h => h
        | cons i gone ih => exact fun m h => ih _ (BMap.sorted_erase h i)
      exact this _ _ (BMap.sorted_insert hx _ _)
    · simp [BMap.Sorted, BMap.keys]
    · intro i
      have hsort : BMap.Sorted [(ids.indexId (whole w.repo), whole w.repo)] := by simp [BMap.Sorted, BMap.keys]
      have hs1 : BMap.Sorted ((BMap.keys w.repo.indexes).foldl (fun m i => BMap.erase i m)
          (BMap.insert (ids.indexId (whole w.repo)) (whole w.repo) w.repo.indexes)) := by
        have : ∀ (gone : List Id) (m : BMap Id (Index Id)), BMap.Sorted m →
            BMap.Sorted (gone.foldl (fun m i => BMap.erase i m) m) := by
          intro gone
          induction gone with
          | nil => exact fun m h => h
          | cons i gone ih => exact fun m h => ih _ (BMap.sorted_erase h i)
        exact this _ _ (BMap.sorted_insert hx _ _)
      refine Option.ext (fun y => ?_)
      rw [BMap.get?_eq_some_iff hs1, BMap.get?_eq_some_iff hsort, mem_erased, BMap.mem_insert_iff hx]
      simp only [List.mem_singleton, Prod.mk.injEq]
      constructor
      · rintro ⟨h | h, h2⟩
        · exact h
        · exact absurd (BMap.mem_keys_of_mem h.2) h2
      · rintro ⟨rfl, rfl⟩
        exact ⟨.inl ⟨rfl, rfl⟩, hnew.1⟩

/-- Afterwards there is one index, and what counts as listed is exactly each pack that is there,
with its own manifest. -/
theorem all_listed (w w' : World Id) (hp : BMap.Sorted w.repo.packs) (hx : BMap.Sorted w.repo.indexes)
    (hnew : NewName ids w.repo) (h : Rebuild.Finished ids true w w') :
    w'.repo.packs = w.repo.packs ∧ w'.repo.indexes.length = 1 ∧
    ∀ p m, Listed w'.repo.indexes p m ↔
      ∃ bs, (p, bs) ∈ w.repo.packs ∧ m = bs.map (fun b => ⟨b.kind, b.data.length, b.id⟩) := by
  have h1 := (finished_repo hp hx hnew h).1
  rw [h1]
  refine ⟨rfl, rfl, fun p m => ?_⟩
  show Listed [(ids.indexId (whole w.repo), whole w.repo)] p m ↔ ∃ bs, (p, bs) ∈ w.repo.packs ∧ m = Pack.manifestOf bs
  rw [← mem_whole]
  constructor
  · rintro ⟨j, y, ⟨h1, _⟩, h3⟩
    simp only [List.mem_singleton, Prod.mk.injEq] at h1
    obtain ⟨rfl, rfl⟩ := h1
    exact h3
  · intro hm
    refine ⟨_, _, ⟨List.mem_singleton.mpr rfl, ?_⟩, hm⟩
    rintro ⟨j, y, h1, h2⟩
    simp only [List.mem_singleton, Prod.mk.injEq] at h1
    obtain ⟨rfl, rfl⟩ := h1
    exact hnew.1 h2

/-- It leaves its work-in-progress index behind. -/
theorem leaves_wip (w w' : World Id) (hp : BMap.Sorted w.repo.packs) (hx : BMap.Sorted w.repo.indexes)
    (hnew : NewName ids w.repo) (h : Rebuild.Finished ids true w w') : w'.cwd.wip = some (whole w.repo) := by
  rw [(finished_repo hp hx hnew h).2]
  rfl

theorem master_one (i : Id) (x : Index Id) (hi : i ∉ x.supersedes) (hs : BMap.Sorted x.packs) :
    ∃ y, Index.buildMaster [(i, .ok x)] = .ok y ∧ y.packs = x.packs := by
  obtain ⟨y, hy⟩ := (C17.succeeds_iff [(i, .ok x)]).mpr ⟨[(i, x)], rfl, by simp⟩
  refine ⟨y, hy, ?_⟩
  have hl : ∀ p m, Listed [(i, x)] p m ↔ (p, m) ∈ x.packs := by
    intro p m
    constructor
    · rintro ⟨j, z, ⟨h1, _⟩, h3⟩
      simp only [List.mem_singleton, Prod.mk.injEq] at h1
      obtain ⟨rfl, rfl⟩ := h1
      exact h3
    · intro hm
      refine ⟨_, _, ⟨List.mem_singleton.mpr rfl, ?_⟩, hm⟩
      rintro ⟨j, z, h1, h2⟩
      simp only [List.mem_singleton, Prod.mk.injEq] at h1
      obtain ⟨rfl, rfl⟩ := h1
      exact hi h2
  have hex := C17.packs_exact [(i, x)] (by simp) y hy (by
    intro p m m' h1 h2
    rw [hl] at h1 h2
    have := (BMap.get?_eq_some_iff hs).mpr h1
    rw [(BMap.get?_eq_some_iff hs).mpr h2] at this
    cases this
    rfl)
  refine BMap.ext_get? (buildMaster_sorted hy) hs (fun p => Option.ext fun m => ?_)
  · rw [hex, hl, BMap.get?_eq_some_iff hs]

/-- Other commands can then open the repository exactly when no blob is stored twice. -/
theorem usable_iff (w w' : World Id) (hp : BMap.Sorted w.repo.packs) (hx : BMap.Sorted w.repo.indexes)
    (hnew : NewName ids w.repo) (h : Rebuild.Finished ids true w w') :
    (∃ src, Opens w'.repo src) ↔ (w.repo.packs.flatMap (fun e => e.2.map Blob.id)).Nodup := by
  have h1 := (finished_repo hp hx hnew h).1
  rw [h1]
  obtain ⟨y, hy, hyp⟩ := master_one (ids.indexId (whole w.repo)) (whole w.repo)
    (fun hm => hnew.1 hm) (sorted_whole hp)
  have hb : blobsListed y.packs = w.repo.packs.flatMap (fun e => e.2.map Blob.id) := by
    rw [hyp]
    simp only [blobsListed, whole, List.flatMap_map]
    refine List.flatMap_congr ?_
    intro e _
    simp [Pack.manifestOf, Pack.entryOf, List.map_map, Function.comp_def]
  rw [← hb, ← (C18.refused_iff y).1]
  constructor
  · rintro ⟨src, ⟨files, hperm, hm⟩, hbm, _⟩
    have : files = [(ids.indexId (whole w.repo), whole w.repo)] := List.perm_singleton.mp hperm
    subst this
    rw [List.map_cons, List.map_nil, hy] at hm
    cases hm
    exact ⟨_, hbm⟩
  · rintro ⟨t, ht⟩
    refine ⟨sourceOf { w.repo with indexes := [(ids.indexId (whole w.repo), whole w.repo)] } y t,
      ⟨_, .refl _, hy⟩, ht, ?_, ?_⟩
    · intro p bs hb
      refine ⟨⟨Pack.contentOf bs, false⟩, ?_, List.prefix_refl _⟩
      simp only [sourceOf, (BMap.get?_eq_some_iff hp).mpr hb]
    · intro p hn
      refine ⟨"no such pack", ?_⟩
      have : w.repo.packs.get? p = none := BMap.get?_eq_none_iff.mpr hn
      simp only [sourceOf, this]

/-! ## It finishes -/

/-- From wherever a run has got to, it can go on to the end; nothing it meets stops it. -/
theorem finishes (w : World Id) (hp : BMap.Sorted w.repo.packs)
    (hne : w.repo.packs ≠ [] ∨ w.repo.indexes ≠ []) (s : Rebuild.State Id)
    (hs : Rebuild.Reachable ids live w s) :
    ∃ t x, Relation.ReflTransGen (Rebuild.Step ids live) s t ∧ t.phase = .uploaded x := by
  have htail : ∀ s x, s.phase = Phase.copied x →
      ∃ t x, Relation.ReflTransGen (Rebuild.Step ids live) s t ∧ t.phase = .uploaded x := by
    intro s x h
    cases hl : live with
    | true => exact ⟨_, x, .single (.move s x h rfl), rfl⟩
    | false => exact ⟨_, x, .single (.discard s x h rfl), rfl⟩
  have hwrote : ∀ s x, s.phase = Phase.wrote x →
      ∃ t x, Relation.ReflTransGen (Rebuild.Step ids live) s t ∧ t.phase = .uploaded x := by
    intro s x h
    obtain ⟨t, y, h1, h2⟩ := htail _ x (show ({ s with
        world := { s.world with cwd := { s.world.cwd with
          indexes := BMap.insert (ids.indexId x) x s.world.cwd.indexes } }, phase := .copied x } :
          Rebuild.State Id).phase = _ from rfl)
    exact ⟨t, y, .head (.copy s x h) h1, h2⟩
  have hgather : ∀ n, ∀ s x, Inv ids w s → s.phase = Phase.gather x → 2 * s.todo.length + s.queue.length = n →
      ∃ t x, Relation.ReflTransGen (Rebuild.Step ids live) s t ∧ t.phase = .uploaded x := by
    intro n
    induction n using Nat.strong_induction_on with
    | _ n ih =>
      intro s x hi h hn
      have hi' := hi
      simp only [Inv, h] at hi'
      obtain ⟨hw, hg⟩ := hi'
      have next : ∀ u y, Rebuild.Step ids live s u → u.phase = Phase.gather y →
          2 * u.todo.length + u.queue.length < n →
          ∃ t x, Relation.ReflTransGen (Rebuild.Step ids live) s t ∧ t.phase = .uploaded x := by
        intro u y hu hy hlt
        obtain ⟨t, z, h1, h2⟩ := ih _ hlt u y (inv_step hp hi hu) hy rfl
        exact ⟨t, z, .head hu h1, h2⟩
      cases hq : s.queue with
      | cons e q =>
        obtain ⟨p, m⟩ := e
        have hnot : p ∉ BMap.keys x.packs := by
          have := hg.nodup
          rw [hq, List.nodup_append] at this
          exact fun hin => this.2.2 p (by simp) p hin rfl
        refine next _ _ (.recv s p m q x hq h hnot) rfl ?_
        rw [hq] at hn
        simp only [List.length_cons] at hn ⊢
        omega
      | nil =>
        cases ht : s.todo with
        | cons p post =>
          obtain ⟨bs, hb⟩ := BMap.mem_keys_iff.mp (hg.todo_packs p (by rw [ht]; exact List.mem_cons_self))
          refine next _ x (.read s [] p post bs ht (by rw [hw]; exact hb)) h ?_
          rw [ht, hq] at hn
          simp only [List.length_cons, List.length_nil, List.nil_append, hq] at hn ⊢
          omega
        | nil =>
          have hx := gathered hp hg ht hq
          have he : x.isEmpty = false := by
            subst hx
            simp only [Index.isEmpty, whole, BMap.keys, List.isEmpty_map, Bool.and_eq_false_iff,
              List.isEmpty_eq_false_iff, ne_eq]
            tauto
          obtain ⟨t, z, h1, h2⟩ := hwrote _ x (show ({ s with
            world := { s.world with cwd := { s.world.cwd with wip := some x } }, phase := .wrote x } :
              Rebuild.State Id).phase = _ from rfl)
          exact ⟨t, z, .head (.write s x ht hq h he) h1, h2⟩
  have hi := inv hp hs
  cases hph : s.phase with
  | gather x => exact hgather _ s x hi hph rfl
  | wrote x => exact hwrote s x hph
  | copied x => exact htail s x hph
  | stored x => exact ⟨_, x, .single (.drop s x hph), rfl⟩
  | uploaded x => exact ⟨s, x, .refl, hph⟩
  | dead => simp only [Inv, hph] at hi

/-- What a dry run that finishes leaves: the repository as it was, and a work-in-progress index
of every pack. -/
theorem dry_leaves_wip (w : World Id) (hp : BMap.Sorted w.repo.packs) (hnew : NewName ids w.repo)
    (hne : w.repo.packs ≠ [] ∨ w.repo.indexes ≠ []) :
    Rebuild.Finished ids false w ⟨w.repo, leftBy ids w⟩ ∧
    ∀ w', Rebuild.Finished ids false w w' → w' = ⟨w.repo, leftBy ids w⟩ := by
  have hall : ∀ w', Rebuild.Finished ids false w w' → w' = ⟨w.repo, leftBy ids w⟩ := by
    intro w' h
    cases h with
    | mk s x hs hph =>
      have hi := inv hp hs
      simp only [Inv, hph] at hi
      have h1 := (put_iff hs).1 rfl
      simp only [posts, Bool.false_eq_true, if_false, List.foldl_nil, h1, hi.2.1]
  obtain ⟨t, x, h1, h2⟩ := finishes (live := false) w hp hne (Rebuild.init w) .refl
  have := Rebuild.Finished.mk (ids := ids) (live := false) t x h1 h2
  refine ⟨?_, hall⟩
  have h3 := hall _ this
  rw [h3] at this
  exact this

/-! ## What it leaves for the next command -/

theorem _root_.Backpak.Rebuild.Finished.instant {w w' : World Id} (h : Rebuild.Finished ids live w w') :
    Rebuild.Instant ids live w w' := by
  cases h with
  | mk s x hs hph => exact .after s x _ [] hs hph (List.append_nil _).symm

/-- What makes it safe to list every pack: no two packs of the repository have a blob in common, their blobs
are what their IDs say, and a pack left in the working directory is the one of that name in the repository, if
there is one. -/
structure AllGood (C : Codec Id) (w : World Id) : Prop where
  packs : Ledger C (fun p bs => (p, bs) ∈ w.repo.packs)
  same : ∀ p bs bs', (p, bs) ∈ w.cwd.packs → (p, bs') ∈ w.repo.packs → bs = bs'

theorem cwd_of {w w' : World Id} (hp : BMap.Sorted w.repo.packs) (h : Rebuild.Instant ids live w w') :
    w' = w ∨ (w'.cwd.wip = some (whole w.repo) ∧ w'.cwd.packs = w.cwd.packs) := by
  cases h with
  | during s hs =>
    have hi := inv hp hs
    cases hph : s.phase with
    | gather x => simp only [Inv, hph] at hi; exact .inl hi.1
    | wrote x => simp only [Inv, hph] at hi; obtain ⟨rfl, h⟩ := hi; rw [h]; exact .inr ⟨rfl, rfl⟩
    | copied x => simp only [Inv, hph] at hi; obtain ⟨rfl, _, h⟩ := hi; rw [h]; exact .inr ⟨rfl, rfl⟩
    | stored x => simp only [Inv, hph] at hi; obtain ⟨rfl, h, _⟩ := hi; rw [h]; exact .inr ⟨rfl, rfl⟩
    | uploaded x => simp only [Inv, hph] at hi; obtain ⟨rfl, h, _⟩ := hi; rw [h]; exact .inr ⟨rfl, rfl⟩
    | dead => simp only [Inv, hph] at hi
  | after s x done rest hs hph hd =>
    have hi := inv hp hs
    simp only [Inv, hph] at hi
    obtain ⟨rfl, h, _⟩ := hi
    simp only [h]
    exact .inr ⟨rfl, rfl⟩

/-- Whatever is listed at any instant is a pack of the repository, as it is there. -/
theorem listed_there {w w' : World Id} (hH : Healthy C ids w.repo) (hnew : NewName ids w.repo)
    (h : Rebuild.Instant ids live w w') {p : Id} {m : Manifest Id} (hl : Listed w'.repo.indexes p m) :
    ∃ bs, (p, bs) ∈ w.repo.packs ∧ m = Pack.manifestOf bs := by
  obtain ⟨hd, _⟩ := onDisk hH.packs_sorted hnew h
  generalize w'.repo = R' at hd hl
  cases hd with
  | same => obtain ⟨bs, h1, h2⟩ := hH.present p m hl; exact ⟨bs, h1, h2.symm⟩
  | put gone hg => exact (listed_put hH.indexes_sorted hnew gone hg p m).mp hl

/-- At every instant the repository is in good order, and a backup that follows can resume from what is left,
also when the rebuild was a dry run or was stopped. -/
theorem next_can_start (w w' : World Id) (hH : Healthy C ids w.repo) (hL : Leftover C ids w)
    (hnew : NewName ids w.repo) (hG : AllGood C w) (h : Rebuild.Instant ids live w w') :
    Healthy C ids w'.repo ∧ Leftover C ids w' := by
  have hlist := @listed_there _ _ _ _ _ _ _ hH hnew h
  obtain ⟨hpk, hsn, hhas⟩ := findable_stays (C := C) w w' hH.packs_sorted hH.indexes_sorted hnew h
  have hread := fun sn => readable_stays (C := C) w w' hH.packs_sorted hH.indexes_sorted hnew h sn
  obtain ⟨hd, _⟩ := onDisk hH.packs_sorted hnew h
  have hidx : BMap.Sorted w'.repo.indexes ∧ (∀ i x, (i, x) ∈ w'.repo.indexes → (i, x) ∈ w.repo.indexes ∨
      (i = ids.indexId (whole w.repo) ∧ x = whole w.repo)) ∧
      (w'.repo.indexes = w.repo.indexes ∨ (ids.indexId (whole w.repo), whole w.repo) ∈ w'.repo.indexes) := by
    generalize w'.repo = R' at hd
    cases hd with
    | same => exact ⟨hH.indexes_sorted, fun i x h => .inl h, .inl rfl⟩
    | put gone hg =>
      have hmem := fun j y => (mem_erased gone (BMap.insert (ids.indexId (whole w.repo)) (whole w.repo) w.repo.indexes) j y)
      refine ⟨?_, ?_, .inr ?_⟩
      · have hs : ∀ (l : List Id) (m : BMap Id (Index Id)), BMap.Sorted m →
            BMap.Sorted (l.foldl (fun m i => BMap.erase i m) m) := by
          intro l
          induction l with
          | nil => exact fun m h => h
          | cons i l ih => exact fun m h => ih _ (BMap.sorted_erase h _)
        exact hs _ _ (BMap.sorted_insert hH.indexes_sorted _ _)
      · intro i x hi
        rcases (BMap.mem_insert_iff hH.indexes_sorted).mp ((hmem i x).mp hi).1 with h1 | h1
        · exact .inr h1
        · exact .inl h1.2
      · exact (hmem _ _).mpr ⟨(BMap.mem_insert_iff hH.indexes_sorted).mpr (.inl ⟨rfl, rfl⟩),
          fun h => hnew.1 (hg _ h)⟩
  have hlive : ∀ p bs, LivePack w'.repo p bs → (p, bs) ∈ w.repo.packs := fun p bs h => by rw [← hpk]; exact h.2
  have hS : Sound C w'.repo := (hG.packs.mono hlive).sound (by rw [hpk]; exact hH.packs_sorted) hidx.1 (by
    intro p m hl
    obtain ⟨bs, h1, h2⟩ := hlist hl
    exact ⟨bs, by rw [hpk]; exact h1, h2.symm⟩)
  refine ⟨⟨hS.packs_sorted, hS.indexes_sorted, by rw [hsn]; exact hH.snapshots_sorted,
    fun p bs hb => hH.pack_names p bs (by rw [← hpk]; exact hb), ?_, ?_, hS.present, hS.distinct, hS.once, hS.one_kind,
    hS.hashes, hS.trees, hS.full, ?_⟩, ?_⟩
  · intro i x hi
    rcases hidx.2.1 i x hi with h1 | ⟨rfl, rfl⟩
    · exact hH.index_names i x h1
    · rfl
  · intro i x hi
    rcases hidx.2.1 i x hi with h1 | ⟨_, rfl⟩
    · exact hH.index_packs i x h1
    · exact sorted_whole hH.packs_sorted
  · intro i sn hi
    rw [hsn] at hi
    exact hread sn (hH.readable i sn hi)
  · rcases cwd_of hH.packs_sorted h with rfl | ⟨h1, h2⟩
    · exact hL
    · refine ⟨fun p bs hb => hL.names p bs (by rw [← h2]; exact hb), ?_, ?_, ?_, hG.packs.mono ?_⟩
      · rintro x hx i hi y ⟨hy, hs⟩ e he
        rw [h1] at hx
        cases hx
        rcases hidx.2.2 with h3 | h3
        · obtain ⟨bs, h4, h5⟩ := hlist ⟨i, y, ⟨hy, hs⟩, (show (e.1, e.2) ∈ y.packs from he)⟩
          exact mem_whole.mpr ⟨bs, h4, h5⟩
        · exact absurd ⟨_, _, h3, hi⟩ hs
      · intro x hx
        rw [h1] at hx
        cases hx
        exact sorted_whole hH.packs_sorted
      · intro x p m hx hm
        rw [h1] at hx
        cases hx
        obtain ⟨bs, h3, h4⟩ := mem_whole.mp hm
        exact ⟨bs, .inr (by rw [hpk]; exact h3), h4⟩
      · rintro p bs (h3 | ⟨x, hx, hm, h3 | h3⟩)
        · exact hlive p bs h3
        · rw [h1] at hx
          cases hx
          obtain ⟨cs, h4, _⟩ := mem_whole.mp hm
          rw [hG.same p bs cs (by rw [← h2]; exact h3) h4]
          exact h4
        · rw [← hpk]; exact h3

/-! ## Packs that nothing lists -/

/-- A repository in good order, beside whose packs lies one that an interrupted prune once
uploaded and no index lists, with a copy of a chunk. -/
def orphaned : Repo ObjectId :=
  ⟨BMap.insert (Demo.pruneIds.packId (Pack.manifestOf [Demo.chunkA])) [Demo.chunkA] Demo.repoAB.packs,
    Demo.repoAB.indexes, Demo.repoAB.snapshots⟩

theorem healthy_orphaned : Healthy Demo.codec Demo.pruneIds orphaned :=
  Check.healthy_sound (k := 2) (by decide +kernel)

theorem newName_of {R : Repo ObjectId}
    (h : decide (Demo.pruneIds.indexId (whole R) ∉ BMap.keys R.indexes ∧
      ∀ e ∈ R.indexes, Demo.pruneIds.indexId (whole R) ∉ e.2.supersedes) = true) : NewName Demo.pruneIds R := by
  rw [decide_eq_true_eq] at h
  exact ⟨h.1, fun ⟨j, y, h1, h2⟩ => h.2 (j, y) h1 h2⟩

theorem new_orphaned : NewName Demo.pruneIds orphaned := newName_of (by decide +kernel)

/-- A rebuild of a repository in good order can finish, and then it can be used exactly when no
blob is stored twice. -/
theorem demo {R : Repo ObjectId} (hh : Healthy Demo.codec Demo.pruneIds R) (hn : NewName Demo.pruneIds R)
    (hne : R.packs ≠ []) :
    (∃ w', Rebuild.Finished Demo.pruneIds true (Demo.clean R) w') ∧
    ∀ w', Rebuild.Finished Demo.pruneIds true (Demo.clean R) w' →
      ((∃ src, Opens w'.repo src) ↔ (R.packs.flatMap (fun e => e.2.map Blob.id)).Nodup) := by
  refine ⟨?_, fun w' h => usable_iff (Demo.clean R) w' hh.packs_sorted hh.indexes_sorted hn h⟩
  obtain ⟨t, x, h1, h2⟩ := finishes (ids := Demo.pruneIds) (live := true) (Demo.clean R) hh.packs_sorted
    (.inl hne) (Rebuild.init _) .refl
  exact ⟨_, .mk t x h1 h2⟩

theorem orphaned_twice : ¬ (orphaned.packs.flatMap (fun e => e.2.map Blob.id)).Nodup := by decide +kernel

theorem orphaned_packs : orphaned.packs ≠ [] := by decide +kernel

/-- Every snapshot of it can be read; rebuilding its index succeeds; afterwards no command that
needs the index can open it. -/
theorem orphan_bricks : Healthy Demo.codec Demo.pruneIds orphaned ∧
    (∃ src, Opens orphaned src) ∧
    (∃ w', Rebuild.Finished Demo.pruneIds true (Demo.clean orphaned) w') ∧
    ∀ w', Rebuild.Finished Demo.pruneIds true (Demo.clean orphaned) w' → ¬ ∃ src, Opens w'.repo src := by
  have hd := demo healthy_orphaned new_orphaned orphaned_packs
  exact ⟨healthy_orphaned, opens_exists healthy_orphaned.sound, hd.1,
    fun w' h => fun ho => orphaned_twice ((hd.2 w' h).mp ho)⟩

theorem newAB : NewName Demo.pruneIds Demo.repoAB := newName_of (by decide +kernel)

theorem packsAB : Demo.repoAB.packs ≠ [] := by decide +kernel

theorem onceAB : (Demo.repoAB.packs.flatMap (fun e => e.2.map Blob.id)).Nodup := by decide +kernel

/-- The hypotheses of the theorems hold of a repository with three packs and two snapshots, and
after it was rebuilt it can be used. -/
example : NewName Demo.pruneIds Demo.repoAB ∧ BMap.Sorted Demo.repoAB.packs ∧ BMap.Sorted Demo.repoAB.indexes ∧
    Demo.repoAB.packs.length = 3 ∧
    (∃ w', Rebuild.Finished Demo.pruneIds true (Demo.clean Demo.repoAB) w') ∧
    ∀ w', Rebuild.Finished Demo.pruneIds true (Demo.clean Demo.repoAB) w' → ∃ src, Opens w'.repo src := by
  have hd := demo Demo.healthyAB newAB packsAB
  exact ⟨newAB, Demo.healthyAB.packs_sorted, Demo.healthyAB.indexes_sorted, by decide +kernel, hd.1,
    fun w' h => (hd.2 w' h).mpr onceAB⟩

end Backpak.C28
