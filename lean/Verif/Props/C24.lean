import Verif.Lemmas.DemoPrune
import Verif.Lemmas.CheckRun

/-!
# C24 - Pruning loses nothing

`Holds` says which file tree an ID stands for,
with every byte of every file found through the live indexes in packs that are there; so nothing
a snapshot needs is lost as long as its tree `Holds` what it held before.
-/

namespace Backpak.C24

open Spec Pipeline

variable {Id : Type} [LinearOrder Id] {C : Codec Id} {env : CacheEnv Id} {ids : Ids Id} {cores : Nat}
  {src : Source Id} {snaps : List (Snap Id)} {plan : Plan Id}

/-- At every instant of a prune, whenever it is interrupted, the repository is in good order and
every snapshot stands for the very file tree it stood for before. -/
theorem always_readable_partial (w w' : World Id) (hP : PruneOk C env ids w src snaps)
    (hN : PruneNoClash ids cores w plan) (hp : prunePlan C env w src snaps false = .ok (some plan))
    (h : Instant (liveCfg ids cores plan.start) w plan.main plan.posts w') :
    Healthy C ids w'.repo ∧ w'.repo.snapshots = w.repo.snapshots ∧
    ∀ i sn d, (i, sn) ∈ w.repo.snapshots → Holds C w.repo sn.tree d → Holds C w'.repo sn.tree d := by
  obtain ⟨c, reach, hpr⟩ := pruning hP hN hp
  cases h with
  | during s hs =>
    obtain ⟨h1, h2, h3, _⟩ := hpr.now hP (hpr.reachable hs)
    exact ⟨h1, h2, h3⟩
  | after s done rest hs hj hd =>
    obtain ⟨h1, h2, h3, _⟩ := hpr.now hP (hpr.reachable hs)
    obtain ⟨x, news, _, _, ht, _⟩ := hpr.later hP (hpr.reachable hs) hj hd
    exact ⟨ht.healthy h1, ht.snaps.trans h2,
      fun i sn d hm hh => has_mono_holds (fun b => (ht.has b).mpr) (h3 i sn d hm hh)⟩

/-- In particular each blob a snapshot needs is at every instant listed by a live index in a pack
that is there. (The empty tree need not be stored, and is not looked up.) -/
theorem needed_listed_partial (w w' : World Id) (hP : PruneOk C env ids w src snaps)
    (hN : PruneNoClash ids cores w plan) (hp : prunePlan C env w src snaps false = .ok (some plan))
    (h : Instant (liveCfg ids cores plan.start) w plan.main plan.posts w') (i : Id)
    (hi : Needed C w.repo i) (hne : i ≠ C.emptyId) :
    ∃ p bs b, Listed w'.repo.indexes p (Pack.manifestOf bs) ∧ (p, bs) ∈ w'.repo.packs ∧ b ∈ bs ∧ b.id = i := by
  have hbefore : ∀ R', (∀ b, Has C w.repo b → Has C R' b) → ∃ p bs b,
      Listed R'.indexes p (Pack.manifestOf bs) ∧ (p, bs) ∈ R'.packs ∧ b ∈ bs ∧ b.id = i := by
    intro R' hR
    obtain ⟨_, hb⟩ := needed_kept hP.healthy.sound (fun b hb => .inl hb) rfl hP.healthy.readable hi
    obtain ⟨b, hb, hid⟩ := hb.resolve_left hne
    obtain ⟨_, p, bs, h1, h2, h3⟩ := hR b hb
    exact ⟨p, bs, b, h1, h2, h3, hid⟩
  obtain ⟨c, reach, hpr⟩ := pruning hP hN hp
  have hafter : ∀ R' : Repo Id, R'.snapshots = w.repo.snapshots →
      (∀ b, Has C R' b → (b ∈ sends plan.main ∨ ∃ p bs, StartPack c p bs ∧ b ∈ bs)) →
      (∀ i sn d, (i, sn) ∈ w.repo.snapshots → Holds C w.repo sn.tree d → Holds C R' sn.tree d) →
      ∃ p bs b, Listed R'.indexes p (Pack.manifestOf bs) ∧ (p, bs) ∈ R'.packs ∧ b ∈ bs ∧ b.id = i := by
    intro R' hs hR hh
    obtain ⟨_, hb⟩ := needed_kept hP.healthy.sound (fun b hb => (hpr.old (hR b hb)).2) hs
      (fun j sn hm => by
        obtain ⟨d, hd⟩ := hP.healthy.readable j sn hm
        exact ⟨d, hh j sn d hm hd⟩) hi
    obtain ⟨b, hb, hid⟩ := hb.resolve_left hne
    obtain ⟨_, p, bs, h1, h2, h3⟩ := hb
    exact ⟨p, bs, b, h1, h2, h3, hid⟩
  have hall := always_readable_partial w w' hP hN hp h
  cases h with
  | during s hs =>
    have h' := hpr.reachable hs
    have hsup : c.start.supersedes = BMap.keys w.repo.indexes := by rw [hpr.cfg]; exact hpr.sup
    rcases replace hpr.run hP.healthy.sound hsup hpr.ledger hpr.fresh hpr.new h' with
      ⟨_, _, h3⟩ | ⟨_, _, _, _, _, h3⟩
    · exact hbefore _ h3
    · exact hafter _ hall.2.1 (fun b => (h3 b).mp) hall.2.2
  | after s done rest hs hj hd =>
    obtain ⟨x, news, _, _, ht, hb⟩ := hpr.later hP (hpr.reachable hs) hj hd
    exact hafter _ hall.2.1 (fun b h => (hb b).mp ((ht.has b).mp h)) hall.2.2

/-- A prune of a repository in good order does not fail before it starts writing. -/
theorem plans (w : World Id) (hP : PruneOk C env ids w src snaps) (dry : Bool) :
    ∃ r, prunePlan C env w src snaps dry = .ok r := prune_succeeds hP dry

/-- With four cores or more it finishes, from wherever it has got to. -/
theorem finishes (w : World Id) (hP : PruneOk C env ids w src snaps)
    (hN : PruneNoClash ids cores w plan) (hp : prunePlan C env w src snaps false = .ok (some plan))
    (hcores : 4 ≤ cores) (hw : BMap.Sorted w.cwd.packs) (s : State Id)
    (hs : Reachable (liveCfg ids cores plan.start) w plan.main s) :
    ∃ t, Relation.ReflTransGen (Step (liveCfg ids cores plan.start)) s t ∧ t.joined = true := by
  obtain ⟨c, reach, hpr⟩ := pruning hP hN hp
  exact hpr.finishes hN hw hcores hs

/-- When it has finished it leaves nothing to resume, and the next command can start. -/
theorem leaves_nothing (w w' : World Id) (hP : PruneOk C env ids w src snaps)
    (hN : PruneNoClash ids cores w plan) (hp : prunePlan C env w src snaps false = .ok (some plan))
    (h : Finished (liveCfg ids cores plan.start) w plan.main plan.posts w') :
    w'.cwd.wip = none ∧ Leftover C ids w' := by
  have hall : Healthy C ids w'.repo := by
    cases h with
    | mk s hs hj => exact (always_readable_partial w _ hP hN hp
        (.after s plan.posts [] hs hj (List.append_nil _).symm)).1
  obtain ⟨c, reach, hpr⟩ := pruning hP hN hp
  cases h with
  | mk s hs hj =>
    have hw : s.world.cwd.wip = none := C14.joined_wip hs hj
    have hids : c.ids = ids := by rw [hpr.cfg]
    refine ⟨hw, ?_, ?_, ?_, ?_, ?_⟩
    · intro p bs hb
      rw [← hids]
      exact ((named hpr.run.world (hpr.reachable hs)).cwd p bs hb).1
    · intro x hx; simp only [hw] at hx; cases hx
    · intro x hx; simp only [hw] at hx; cases hx
    · intro x p m hx; simp only [hw] at hx; cases hx
    · refine hall.sound.ledger.mono ?_
      rintro p bs (h | ⟨x, hx, _⟩)
      · exact h
      · simp only [hw] at hx; cases hx

/-- Pruning away one of two snapshots that share packs: two blobs are repacked, three packs and
an index removed. -/
example : PruneOk Demo.codec Demo.env Demo.pruneIds (Demo.clean Demo.repoA) (Check.opened Demo.repoA)
      (Demo.snapsOf Demo.repoA) ∧
    PruneNoClash Demo.pruneIds 4 (Demo.clean Demo.repoA) Demo.planA ∧
    prunePlan Demo.codec Demo.env (Demo.clean Demo.repoA) (Check.opened Demo.repoA)
      (Demo.snapsOf Demo.repoA) false = .ok (some Demo.planA) ∧
    sends Demo.planA.main = [Demo.chunkA, Demo.treeA] ∧ Demo.planA.posts.length = 4 ∧
    ∃ w', Finished (liveCfg Demo.pruneIds 4 Demo.planA.start) (Demo.clean Demo.repoA) Demo.planA.main
      Demo.planA.posts w' := by
  refine ⟨Demo.pruneOkA, Demo.noClashA, Demo.planA_eq, by decide +kernel, by decide +kernel, ?_⟩
  obtain ⟨t, ht, hj⟩ := finishes _ Demo.pruneOkA Demo.noClashA Demo.planA_eq (Nat.le_refl 4) BMap.sorted_nil _ .refl
  exact ⟨_, .mk t ht hj⟩

/-! ## A chunk that looks like the empty tree

Repacking, unlike a backup, stores empty trees. The file holding the one byte `0xA0` has a chunk
with the bytes, and so the ID, of the empty tree. If the directory is met first then the chunk is
taken to be packed already, and goes with the pack it was in. -/

/-- The chunk. -/
def chunkE : Blob ObjectId := Demo.blobOf .chunk [0xA0]

/-- An empty directory, and a file of that chunk. -/
def rootE : Tree ObjectId :=
  [([97], ⟨.dir Demo.codec.emptyId, Demo.dirMd⟩), ([98], ⟨.file [chunkE.id], Demo.fileMd 1 5⟩)]

def snapE : Snapshot ObjectId := Demo.snapOf (Demo.treeBlob rootE) 1

/-- Both backed up; the chunk shares its pack with one that nothing uses. -/
def repoE : Repo ObjectId := Demo.repoOf Demo.pruneIds [[chunkE, Demo.junk], [Demo.treeBlob rootE]] [snapE]

def planE : Plan ObjectId :=
  Demo.prunePlanOf (prunePlan Demo.codec Demo.env (Demo.clean repoE) (Check.opened repoE) (Demo.snapsOf repoE) false)

theorem planE_eq : prunePlan Demo.codec Demo.env (Demo.clean repoE) (Check.opened repoE)
    (Demo.snapsOf repoE) false = .ok (some planE) := Demo.prunePlanOf_eq (by decide +kernel)

theorem healthyE : Healthy Demo.codec Demo.pruneIds repoE := Check.healthy_sound (k := 2) (by decide +kernel)

theorem runE : Check.run Demo.codec Demo.pruneIds (Demo.clean repoE) planE.start (sends planE.main) = true := by
  decide +kernel

theorem mainE : planE.main = mainOf [] (sends planE.main) := by decide +kernel

theorem newE : IndexNew (liveCfg Demo.pruneIds 4 planE.start) repoE (sends planE.main) :=
  Demo.indexNew_of (by decide +kernel)

theorem poolE : Check.pool (Demo.clean repoE) planE.start (sends planE.main) =
    [emptyBlob Demo.codec, Demo.treeBlob rootE] := by decide +kernel

theorem treesE : ∀ b ∈ Check.pool (Demo.clean repoE) planE.start (sends planE.main),
    b.kind = .tree → b.id = snapE.tree → b.data = Demo.codec.encTree rootE := by
  rw [poolE]; decide +kernel

theorem chunksE : ∀ b ∈ Check.pool (Demo.clean repoE) planE.start (sends planE.main),
    b.kind = .chunk → b.id ≠ chunkE.id := by
  rw [poolE]; decide +kernel

theorem decE : Demo.codec.decTree (Demo.codec.encTree rootE) = some (rootE, []) := by decide +kernel

theorem rootE_ne : snapE.tree ≠ Demo.codec.emptyId := by decide +kernel

theorem fileE : (([98], ⟨.file [chunkE.id], Demo.fileMd 1 5⟩) : Name × Node ObjectId) ∈ rootE := by
  decide +kernel

theorem inE : (Demo.pruneIds.snapId snapE, snapE) ∈ (Demo.clean repoE).repo.snapshots := by decide +kernel

/-- Pruning a repository in good order, with no hash collision of any kind, can make a snapshot
unreadable. Of what `always_readable_partial` asks only `noEmpty` fails. -/
theorem empty_tree_hides_chunk :
    Healthy Demo.codec Demo.pruneIds repoE ∧
    Leftover Demo.codec Demo.pruneIds (Demo.clean repoE) ∧ Opens repoE (Check.opened repoE) ∧
    (∀ i s, (i, s) ∈ repoE.snapshots ↔ (s, i) ∈ Demo.snapsOf repoE) ∧
    PruneNoClash Demo.pruneIds 4 (Demo.clean repoE) planE ∧
    prunePlan Demo.codec Demo.env (Demo.clean repoE) (Check.opened repoE) (Demo.snapsOf repoE) false =
      .ok (some planE) ∧
    (∃ w', Finished (liveCfg Demo.pruneIds 4 planE.start) (Demo.clean repoE) planE.main planE.posts w') ∧
    ∀ w', Finished (liveCfg Demo.pruneIds 4 planE.start) (Demo.clean repoE) planE.main planE.posts w' →
      (Demo.pruneIds.snapId snapE, snapE) ∈ w'.repo.snapshots ∧ ¬ Readable Demo.codec w'.repo snapE := by
  refine ⟨healthyE, Demo.leftover_clean healthyE, Check.opened_opens healthyE, ?_,
    ⟨Check.packsDiffer_sound (by decide +kernel), newE⟩, planE_eq, ?_, ?_⟩
  · intro i s
    unfold Demo.snapsOf
    rw [List.mem_map]
    constructor
    · exact fun hm => ⟨_, hm, rfl⟩
    · rintro ⟨⟨j, s'⟩, hm, he⟩; cases he; exact hm
  · obtain ⟨t, ht, hj⟩ := Check.run_finishes (cores := 4) (w := Demo.clean repoE) healthyE runE (Nat.le_refl 4)
    exact ⟨_, .mk t (by rw [mainE]; exact ht) hj⟩
  · intro w' h
    cases h with
    | mk s hs hj =>
      have hup := (ctl hs).joinedUp hj
      rw [mainE] at hs
      have inE := inE
      obtain ⟨h1, h2⟩ := Check.run_trimmed (ops := planE.posts) (w := Demo.clean repoE) healthyE runE
        (by decide +kernel) (by decide +kernel) newE hs hup (by decide +kernel)
      simp only [liveCfg_ids]
      refine ⟨?_, ?_⟩
      · rw [← h1] at inE
        exact inE
      · have h3 := fun b hb => treesE b (h2 b hb)
        have h4 := fun b hb => chunksE b (h2 b hb)
        exact Check.no_chunk (C := Demo.codec) (s := snapE) (t := rootE) (c := chunkE.id) decE rootE_ne h3 fileE
          List.mem_cons_self h4

/-! ## A prune that fails

If repacking fails part way (a pack cannot be read, say) then the error leaves the closure that
owns the channels (`src/ui/prune.rs:188-220`), which closes them; the other threads take that for
the end, and upload an index of what they have. For a backup that is harmless
(`C13.failing_readable_partial`). But a prune's index supersedes every other. -/

/-- The opened repository when one pack cannot be read. -/
def cutOff (src : Source ObjectId) (p : ObjectId) : Source ObjectId :=
  { src with read := fun q => if q = p then .error (.err "timed out") else src.read q }

/-- The pack with the chunks. -/
def lostPack : ObjectId := Demo.pruneIds.packId (Pack.manifestOf [Demo.chunkA, Demo.chunkB])

theorem failing_run : Check.run Demo.codec Demo.pruneIds (Demo.clean Demo.repoA) Demo.planA.start [] = true := by
  decide +kernel

theorem failing_new : IndexNew (liveCfg Demo.pruneIds 4 Demo.planA.start) Demo.repoA [] :=
  Demo.indexNew_of (by decide +kernel)

theorem failing_pool : Check.pool (Demo.clean Demo.repoA) Demo.planA.start [] = [] := by decide +kernel

theorem failing_in : (Demo.pruneIds.snapId Demo.snapA, Demo.snapA) ∈ (Demo.clean Demo.repoA).repo.snapshots := by
  decide +kernel

theorem failing_ne : Demo.snapA.tree ≠ Demo.codec.emptyId := by decide +kernel

/-- A prune of a repository in good order that fails to read its first chunk has sent nothing;
when its threads have ended, the snapshot cannot be read, though every pack is still there. -/
theorem failing_prune_loses :
    PruneOk Demo.codec Demo.env Demo.pruneIds (Demo.clean Demo.repoA) (Check.opened Demo.repoA)
      (Demo.snapsOf Demo.repoA) ∧
    PruneNoClash Demo.pruneIds 4 (Demo.clean Demo.repoA) Demo.planA ∧
    prunePlan Demo.codec Demo.env (Demo.clean Demo.repoA) (Check.opened Demo.repoA)
      (Demo.snapsOf Demo.repoA) false = .ok (some Demo.planA) ∧
    (prunePlan Demo.codec Demo.env (Demo.clean Demo.repoA) (cutOff (Check.opened Demo.repoA) lostPack)
      (Demo.snapsOf Demo.repoA) false = .error (.err "timed out")) ∧
    (∃ s, Reachable (liveCfg Demo.pruneIds 4 Demo.planA.start) (Demo.clean Demo.repoA) (mainOf [] []) s ∧
      s.up = .exited) ∧
    ∀ s, Reachable (liveCfg Demo.pruneIds 4 Demo.planA.start) (Demo.clean Demo.repoA) (mainOf [] []) s →
      s.up = .exited → (Demo.pruneIds.snapId Demo.snapA, Demo.snapA) ∈ s.world.repo.snapshots ∧
        ¬ Readable Demo.codec s.world.repo Demo.snapA := by
  refine ⟨Demo.pruneOkA, Demo.noClashA, Demo.planA_eq, ?_, ?_, ?_⟩
  · have : (match prunePlan Demo.codec Demo.env (Demo.clean Demo.repoA)
        (cutOff (Check.opened Demo.repoA) lostPack) (Demo.snapsOf Demo.repoA) false with
        | .error (.err t) => decide (t = "timed out") | _ => false) = true := by decide +kernel
    split at this
    · rename_i t ht
      rw [ht, of_decide_eq_true this]
    · cases this
  · obtain ⟨t, ht, hj⟩ := Check.run_finishes (cores := 4) (w := Demo.clean Demo.repoA) Demo.healthyA failing_run
      (Nat.le_refl 4)
    exact ⟨t, ht, (ctl ht).joinedUp hj⟩
  · intro s hs hup
    obtain ⟨h1, h2⟩ := Check.run_trimmed (ops := []) (w := Demo.clean Demo.repoA) Demo.healthyA failing_run
      (by decide +kernel) (by decide +kernel) failing_new hs hup rfl
    rw [failing_pool] at h2
    simp only [List.foldl_nil] at h1 h2
    rw [h1]
    refine ⟨failing_in, Check.no_root failing_ne (fun b hb => ?_)⟩
    cases h2 b hb

end Backpak.C24
