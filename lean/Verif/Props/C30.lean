import Verif.Lemmas.Copy
import Verif.Lemmas.CheckRun
import Verif.Lemmas.DemoPrune
import Verif.Props.C24
import Verif.Props.C37

/-!
# C30 - Copying snapshots between repositories

`R` is the source repository and `w` the destination with the working directory. `Holds` says
which file tree an ID stands for in a repository, with every byte of every file found through its
live indexes; `keep filter` is a file tree less the paths the filter rejects.
-/

namespace Backpak.C30

open Spec Pipeline

variable {Id : Type} [LinearOrder Id] {C : Codec Id} {env : CacheEnv Id} {ids : Ids Id} {cores : Nat}
  {from_ dst : Source Id} {snaps : List (Snap Id)} {filter : Path → Bool} {plan : Plan Id}

theorem mem_zipWith {A B X : Type} {f : A → B → X} {P : A → B → Prop} {l : List A} {m : List B}
    (h : List.Forall₂ P l m) {x : X} (hx : x ∈ List.zipWith f l m) : ∃ a ∈ l, ∃ b ∈ m, P a b ∧ x = f a b := by
  induction h with
  | nil => cases hx
  | cons hab _ ih =>
    rw [List.zipWith_cons_cons] at hx
    rcases List.mem_cons.mp hx with rfl | hx
    · exact ⟨_, List.mem_cons_self, _, List.mem_cons_self, hab, rfl⟩
    · obtain ⟨a, ha, b, hb, hP, he⟩ := ih hx
      exact ⟨a, List.mem_cons_of_mem _ ha, b, List.mem_cons_of_mem _ hb, hP, he⟩

theorem zipWith_mem {A B X : Type} {f : A → B → X} {P : A → B → Prop} {l : List A} {m : List B}
    (h : List.Forall₂ P l m) {a : A} (ha : a ∈ l) : ∃ b, P a b ∧ f a b ∈ List.zipWith f l m := by
  induction h with
  | nil => cases ha
  | cons hab _ ih =>
    rw [List.zipWith_cons_cons]
    rcases List.mem_cons.mp ha with rfl | ha
    · exact ⟨_, hab, List.mem_cons_self⟩
    · obtain ⟨b, hP, he⟩ := ih ha
      exact ⟨b, hP, List.mem_cons_of_mem _ he⟩

/-- At every instant of a copy, whenever it is interrupted, the destination is in good order (so
each snapshot it has is readable), its earlier snapshots are there and stand for what they stood
for, and the next command can resume. -/
theorem always_healthy_partial (R : Repo Id) (w w' : World Id) (hC : CopyOk C env ids R w from_ dst snaps)
    (hN : CopyNoClash C ids cores R w from_ snaps filter plan)
    (hp : copyPlan C env w from_ dst snaps filter false = .ok plan)
    (h : Instant (liveCfg ids cores plan.start) w plan.main plan.posts w') :
    Healthy C ids w'.repo ∧ Leftover C ids w' ∧
    (∀ i sn, (i, sn) ∈ w.repo.snapshots → (i, sn) ∈ w'.repo.snapshots) ∧
    ∀ i d, Holds C w.repo i d → Holds C w'.repo i d := by
  cases h with
  | during s hs =>
    obtain ⟨h1, h2, h3, h4, _⟩ := copy_run hC hN hp hs
    exact ⟨h1, h2, fun i sn hm => by rw [h3]; exact hm, fun i d hd => has_mono_holds h4 hd⟩
  | after s done rest hs hj hd =>
    obtain ⟨h1, h2, h3, h4, rs, h5, _, h6, _⟩ := copy_run hC hN hp hs
    have h6 := h6 hj
    obtain ⟨l, l', hl, hdone⟩ : ∃ l l', List.zipWith (fun (s : Snap Id) (r : Id × List (Blob Id)) =>
        { s.1 with tree := r.1 }) snaps rs = l ++ l' ∧ done = l.map Post.putSnap := by
      rw [h5] at hd
      obtain ⟨l, l', hl, h7, _⟩ := List.map_eq_append_iff.mp hd
      exact ⟨l, l', hl, h7.symm⟩
    have hsub : ∀ sn ∈ l, .putSnap sn ∈ plan.posts := by
      intro sn hm
      rw [h5, hl]
      exact List.mem_map.mpr ⟨sn, List.mem_append_left _ hm, rfl⟩
    subst hdone
    simp only [liveCfg_ids]
    refine ⟨puts_healthy l h1 ?_, puts_leftover l h2, ?_, ?_⟩
    · intro sn hm
      obtain ⟨a, _, b, _, ⟨d, _, _, hd⟩, rfl⟩ := mem_zipWith h6 (by rw [hl]; exact List.mem_append_left _ hm)
      exact ⟨_, hd⟩
    · intro i sn hm
      refine (puts_snaps l h1.snapshots_sorted ?_).2 i sn (by rw [h3]; exact hm) ?_
      · exact fun a ha b hb he => hN.snaps a (hsub a ha) b (.inl ⟨hsub b hb, he⟩)
      · rintro a ha rfl
        exact (hN.snaps a (hsub a ha) sn (.inr hm)).symm
    · exact fun i d hd => has_mono_holds (fun b hb => puts_has l (h4 b hb)) hd

/-- When a copy has finished, each of its snapshots is in the destination but for its tree, whose
ID there stands for the file tree it stood for in the source less what is skipped. If nothing is
skipped it is the very same snapshot, so under the same ID (which is that of its contents). -/
theorem copied_partial (R : Repo Id) (w w' : World Id) (hC : CopyOk C env ids R w from_ dst snaps)
    (hN : CopyNoClash C ids cores R w from_ snaps filter plan)
    (hp : copyPlan C env w from_ dst snaps filter false = .ok plan)
    (h : Finished (liveCfg ids cores plan.start) w plan.main plan.posts w') :
    ∀ s ∈ snaps, ∃ d root, Holds C R s.1.tree d ∧
      (ids.snapId { s.1 with tree := root }, { s.1 with tree := root }) ∈ w'.repo.snapshots ∧
      Holds C w'.repo root (keep filter (fun n => [n]) d) ∧
      ((∀ p, filter p = true) → (ids.snapId s.1, s.1) ∈ w'.repo.snapshots ∧ Holds C w'.repo s.1.tree d) := by
  cases h with
  | mk s hs hj =>
    obtain ⟨h1, h2, h3, h4, rs, h5, _, h6, _⟩ := copy_run hC hN hp hs
    have h6 := h6 hj
    intro sn hsn
    obtain ⟨r, ⟨d, hd, hrep, hh⟩, hm⟩ :=
      zipWith_mem (f := fun (s : Snap Id) (r : Id × List (Blob Id)) => { s.1 with tree := r.1 }) h6 hsn
    have hput := (puts_snaps (List.zipWith (fun (s : Snap Id) (r : Id × List (Blob Id)) =>
      { s.1 with tree := r.1 }) snaps rs) (R := s.world.repo) (ids := ids) h1.snapshots_sorted (by
        have hsub : ∀ a ∈ List.zipWith (fun (s : Snap Id) (r : Id × List (Blob Id)) =>
            { s.1 with tree := r.1 }) snaps rs, .putSnap a ∈ plan.posts := by
          intro a ha; rw [h5]; exact List.mem_map.mpr ⟨a, ha, rfl⟩
        exact fun a ha b hb he => hN.snaps a (hsub a ha) b (.inl ⟨hsub b hb, he⟩))).1 _ hm
    have hholds : Holds C ((plan.posts).foldl (applyPost ids) s.world.repo) r.1
        (keep filter (fun n => [n]) d) := by
      rw [h5]; exact has_mono_holds (fun b hb => puts_has _ hb) hh
    rw [← h5] at hput
    refine ⟨d, r.1, hd, hput, hholds, fun hall => ?_⟩
    have hroot := hrep.same hall
    have hkeep : keep filter (fun n => [n]) d = d := by
      have : filter = fun _ => true := funext hall
      rw [this]
      obtain ⟨t, _, ht⟩ := hd
      exact keep_all ht _
    rw [hroot, hkeep] at hholds
    rw [hroot] at hput
    exact ⟨hput, hholds⟩

/-- The whole command, given what is in the source in time order and the arguments: it copies every
snapshot with `--all`, else every snapshot that is named. -/
theorem command_copies_partial {C : Codec ObjectId} {env : CacheEnv ObjectId} {ids : Ids ObjectId}
    {from_ dst : Source ObjectId} {plan : Plan ObjectId} (R : Repo ObjectId) (w w' : World ObjectId)
    (all : Bool) (listed : List (Snap ObjectId)) (names : List Bytes) (snaps : List (Snap ObjectId))
    (hd : C36.Distinct listed) (ht : C37.TimesDiffer listed) (hl : copySnaps all listed names = .ok snaps)
    (hC : CopyOk C env ids R w from_ dst snaps)
    (hN : CopyNoClash C ids cores R w from_ snaps filter plan)
    (hp : copyPlan C env w from_ dst snaps filter false = .ok plan)
    (h : Finished (liveCfg ids cores plan.start) w plan.main plan.posts w') :
    ∀ s ∈ listed, (all = true ∨ ∃ a ∈ names, findSnap listed a = .ok s) →
      ∃ d root, Holds C R s.1.tree d ∧
        (ids.snapId { s.1 with tree := root }, { s.1 with tree := root }) ∈ w'.repo.snapshots ∧
        Holds C w'.repo root (keep filter (fun n => [n]) d) := by
  intro s hs hsel
  have hmem : s ∈ snaps := by
    cases all with
    | true => cases hl; exact hs
    | false =>
      obtain ⟨a, ha, hf⟩ := hsel.resolve_left (by simp)
      exact ((C37.args_list listed hd ht names snaps hl).1 s).mpr ⟨a, ha, hf⟩
  obtain ⟨d, root, h1, h2, h3, _⟩ := copied_partial R w w' hC hN hp h s hmem
  exact ⟨d, root, h1, h2, h3⟩

/-- Nothing but copied snapshots is added. -/
theorem only_copied (R : Repo Id) (w w' : World Id) (hC : CopyOk C env ids R w from_ dst snaps)
    (hN : CopyNoClash C ids cores R w from_ snaps filter plan)
    (hp : copyPlan C env w from_ dst snaps filter false = .ok plan)
    (h : Instant (liveCfg ids cores plan.start) w plan.main plan.posts w') :
    ∀ i sn, (i, sn) ∈ w'.repo.snapshots → (i, sn) ∈ w.repo.snapshots ∨
      ∃ s ∈ snaps, sn = { s.1 with tree := sn.tree } := by
  cases h with
  | during s hs =>
    obtain ⟨_, _, h3, _⟩ := copy_run hC hN hp hs
    exact fun i sn hm => .inl (by rw [← h3]; exact hm)
  | after s done rest hs hj hd =>
    obtain ⟨h1, h2, h3, h4, rs, h5, _, h6, _⟩ := copy_run hC hN hp hs
    have h6 := h6 hj
    have hdone : ∀ o ∈ done, ∃ sn, o = .putSnap sn ∧ ∃ s ∈ snaps, sn = { s.1 with tree := sn.tree } := by
      intro o ho
      have : o ∈ plan.posts := by rw [hd]; exact List.mem_append_left _ ho
      rw [h5] at this
      obtain ⟨sn, hm, rfl⟩ := List.mem_map.mp this
      obtain ⟨a, ha, b, _, _, rfl⟩ := mem_zipWith h6 hm
      exact ⟨_, rfl, a, ha, rfl⟩
    have key : ∀ (done : List (Post Id)) (R' : Repo Id),
        (∀ o ∈ done, ∃ sn, o = .putSnap sn ∧ ∃ s ∈ snaps, sn = { s.1 with tree := sn.tree }) →
        BMap.Sorted R'.snapshots →
        (∀ i sn, (i, sn) ∈ R'.snapshots → (i, sn) ∈ w.repo.snapshots ∨
          ∃ s ∈ snaps, sn = { s.1 with tree := sn.tree }) →
        ∀ i sn, (i, sn) ∈ (done.foldl (applyPost ids) R').snapshots → (i, sn) ∈ w.repo.snapshots ∨
          ∃ s ∈ snaps, sn = { s.1 with tree := sn.tree } := by
      intro done
      induction done with
      | nil => exact fun R' _ _ h => h
      | cons o l ih =>
        intro R' hl hsrt h
        rw [List.foldl_cons]
        obtain ⟨sn0, rfl, hs0⟩ := hl _ List.mem_cons_self
        refine ih _ (fun o ho => hl o (List.mem_cons_of_mem _ ho)) (BMap.sorted_insert hsrt _ _) ?_
        intro i sn hm
        rcases (BMap.mem_insert_iff hsrt).mp hm with ⟨rfl, rfl⟩ | ⟨_, hm⟩
        · exact .inr hs0
        · exact h i sn hm
    exact key done _ hdone h1.snapshots_sorted (fun i sn hm => .inl (by rw [← h3]; exact hm))

/-- A copy from one repository in good order to another gets as far as starting its threads. -/
theorem plans (R : Repo Id) (w : World Id) (hC : CopyOk C env ids R w from_ dst snaps)
    (filter : Path → Bool) (dry : Bool) :
    ∃ plan, copyPlan C env w from_ dst snaps filter dry = .ok plan := copy_succeeds hC filter dry

/-- With four cores or more it then finishes, from wherever it has got to. -/
theorem finishes (R : Repo Id) (w : World Id) (hC : CopyOk C env ids R w from_ dst snaps)
    (hN : CopyNoClash C ids cores R w from_ snaps filter plan)
    (hp : copyPlan C env w from_ dst snaps filter false = .ok plan)
    (hcores : 4 ≤ cores) (hcwd : BMap.Sorted w.cwd.packs) (s : State Id)
    (hs : Reachable (liveCfg ids cores plan.start) w plan.main s) :
    ∃ t, Relation.ReflTransGen (Step (liveCfg ids cores plan.start)) s t ∧ t.joined = true := by
  obtain ⟨rs, known, here, h1, h2, hk, hr, hm, hpost⟩ := copyPlan_ok hC hp
  have hu : Unmixed C (fun b => Stored w b ∨ b ∈ rs.flatMap Prod.snd) := by
    have hsub : ∀ b, (Stored w b ∨ b ∈ rs.flatMap Prod.snd) →
        (Stored w b ∨ Has C R b ∨ b ∈ copyTrees C from_ snaps filter) :=
      fun b hb => hb.imp (fun e => e) (fun hb => (h2 b hb).2)
    exact ⟨fun b b' hb hb' => hN.blobs.hash b b' (hsub b hb) (hb'.imp (hsub b') (fun e => e)),
      fun b b' hb hb' => hN.blobs.kind b b' (hsub b hb) (hsub b' hb')⟩
  obtain ⟨hfresh, _⟩ := offer_fresh hC.leftover
    (packed_iff hC.healthy.sound hC.leftover hC.opens hk hr) (fun b hb => (h2 b hb).1) hu
  have hmain : plan.main = mainOf here
      ((rs.flatMap Prod.snd).foldl offer ⟨BMap.keys known ++ listedIds plan.start, []⟩).sent := by
    rw [hm]; rfl
  have hpk := hN.packs
  rw [hmain] at hpk hs
  exact add_finishes hcores hC.healthy hC.leftover hcwd hr hfresh hpk hs

/-! ## An example -/

/-- Leave out the file `b`. -/
def noB (p : Path) : Bool := decide (p ≠ [[98]])

/-- Copying two snapshots into an empty repository, one of them less its only file. -/
def plan1 : Plan ObjectId := Demo.planOf
  (copyPlan Demo.codec Demo.env Demo.world0 (Check.opened Demo.repoAB) Demo.src0 (Demo.snapsOf Demo.repoAB) noB false)

theorem plan1_eq : copyPlan Demo.codec Demo.env Demo.world0 (Check.opened Demo.repoAB) Demo.src0
    (Demo.snapsOf Demo.repoAB) noB false = .ok plan1 := Demo.planOf_eq (by decide +kernel)

theorem copyOk_of {R : Repo ObjectId} (h : Healthy Demo.codec Demo.pruneIds R) :
    CopyOk Demo.codec Demo.env Demo.pruneIds R Demo.world0 (Check.opened R) Demo.src0 (Demo.snapsOf R) where
  clock := Demo.env_ok
  source := h
  fromOpens := Check.opened_opens h
  loaded s hs := by
    obtain ⟨⟨i, s'⟩, hm, rfl⟩ := List.mem_map.mp hs
    exact hm
  healthy := Demo.healthy_empty _ _
  leftover := Demo.leftover_clean (Demo.healthy_empty _ _)
  opens := Demo.opens0

theorem index0 {start : Index ObjectId} {cores : Nat} {ss : List (Blob ObjectId)} (hs : start.supersedes = []) :
    IndexOk (liveCfg Demo.pruneIds cores start) Demo.world0.repo ss := by
  intro x _
  exact ⟨(by rintro ⟨j, y, h, _⟩; cases h), (by intro y h; cases h), by
    show _ ∉ start.supersedes; rw [hs]; simp⟩

/-- The new IDs of snapshots differ. -/
def snapsDiffer (posts : List (Post ObjectId)) : Bool :=
  posts.all fun a => posts.all fun b =>
    match a, b with
    | .putSnap a, .putSnap b => decide (Demo.pruneIds.snapId b = Demo.pruneIds.snapId a → b = a)
    | _, _ => true

theorem snapsDiffer_sound {posts : List (Post ObjectId)} (h : snapsDiffer posts = true) :
    ∀ sn, .putSnap sn ∈ posts → ∀ sn',
      (.putSnap sn' ∈ posts ∧ Demo.pruneIds.snapId sn' = Demo.pruneIds.snapId sn) ∨
        (Demo.pruneIds.snapId sn, sn') ∈ Demo.world0.repo.snapshots → sn' = sn := by
  rintro sn h1 sn' (⟨h2, h3⟩ | h2)
  · simp only [snapsDiffer, List.all_eq_true] at h
    have := h _ h1 _ h2
    exact of_decide_eq_true this h3
  · cases h2

def blobs1 : List (Blob ObjectId) :=
  Check.blobs Demo.repoAB ++ copyTrees Demo.codec (Check.opened Demo.repoAB) (Demo.snapsOf Demo.repoAB) noB

theorem blobs1_hash : ∀ b ∈ blobs1, ∀ b' ∈ emptyBlob Demo.codec :: blobs1,
    Demo.codec.hash b.data = Demo.codec.hash b'.data → b.data = b'.data := by decide +kernel

theorem blobs1_kind : ∀ b ∈ blobs1, ∀ b' ∈ blobs1, b.data = b'.data → b.kind = b'.kind := by decide +kernel

theorem noClash1 : CopyNoClash Demo.codec Demo.pruneIds 4 Demo.repoAB Demo.world0 (Check.opened Demo.repoAB)
    (Demo.snapsOf Demo.repoAB) noB plan1 where
  blobs := by
    have hm : ∀ b, (Stored Demo.world0 b ∨ Has Demo.codec Demo.repoAB b ∨
        b ∈ copyTrees Demo.codec (Check.opened Demo.repoAB) (Demo.snapsOf Demo.repoAB) noB) → b ∈ blobs1 := by
      rintro b (⟨p, bs, (⟨⟨i, x, ⟨h, _⟩, _⟩, _⟩ | ⟨x, h, _⟩), _⟩ | h | h)
      · cases h
      · cases h
      · exact List.mem_append_left _ (Check.has_iff.mp h).2
      · exact List.mem_append_right _ h
    exact ⟨fun b b' h h' => blobs1_hash b (hm b h) b'
        (h'.elim (fun h => List.mem_cons_of_mem _ (hm b' h)) (fun e => e ▸ List.mem_cons_self)),
      fun b b' h h' => blobs1_kind b (hm b h) b' (hm b' h')⟩
  packs := Check.packsDiffer_sound (by decide +kernel)
  indexes := index0 (by decide +kernel)
  snaps := snapsDiffer_sound (by decide +kernel)

example : CopyOk Demo.codec Demo.env Demo.pruneIds Demo.repoAB Demo.world0 (Check.opened Demo.repoAB) Demo.src0
      (Demo.snapsOf Demo.repoAB) ∧
    CopyNoClash Demo.codec Demo.pruneIds 4 Demo.repoAB Demo.world0 (Check.opened Demo.repoAB)
      (Demo.snapsOf Demo.repoAB) noB plan1 ∧
    copyPlan Demo.codec Demo.env Demo.world0 (Check.opened Demo.repoAB) Demo.src0
      (Demo.snapsOf Demo.repoAB) noB false = .ok plan1 ∧
    (sends plan1.main).length = 3 ∧ plan1.posts.length = 2 ∧
    ∃ w', Finished (liveCfg Demo.pruneIds 4 plan1.start) Demo.world0 plan1.main plan1.posts w' := by
  refine ⟨copyOk_of Demo.healthyAB, noClash1, plan1_eq, by decide +kernel, by decide +kernel, ?_⟩
  obtain ⟨t, ht, hj⟩ := finishes _ _ (copyOk_of Demo.healthyAB) noClash1 plan1_eq (Nat.le_refl 4)
    BMap.sorted_nil _ .refl
  exact ⟨_, .mk t ht hj⟩

/-- With `--all`, and by name. -/
example : C36.Distinct (Demo.snapsOf Demo.repoAB) ∧ C37.TimesDiffer (Demo.snapsOf Demo.repoAB) ∧
    copySnaps true (Demo.snapsOf Demo.repoAB) [] = .ok (Demo.snapsOf Demo.repoAB) ∧
    (Demo.snapsOf Demo.repoAB).length = 2 ∧
    ∃ s, copySnaps false (Demo.snapsOf Demo.repoAB) [ascii "LAST"] = .ok [s] := by
  have h1 : C36.Distinct (Demo.snapsOf Demo.repoAB) := by unfold C36.Distinct; decide +kernel
  have h2 : ∀ s ∈ Demo.snapsOf Demo.repoAB, ∀ s' ∈ Demo.snapsOf Demo.repoAB, s.1.time = s'.1.time → s.2 = s'.2 := by
    decide +kernel
  refine ⟨h1, fun s hs s' hs' h => C36.distinct_one h1 hs hs' (h2 s hs s' hs' h), rfl, by decide +kernel, ?_⟩
  have h3 : (match findSnap (Demo.snapsOf Demo.repoAB) (ascii "LAST") with | .ok _ => true | .error _ => false) = true := by
    decide +kernel
  split at h3
  · rename_i s hs
    exact ⟨s, by simp [copySnaps, fromArgsList, findAll, hs, Except.map, sortSnaps, dedupSnaps, dedupAfter]⟩
  · cases h3

/-! ## A chunk that looks like the empty tree

A copy, like a prune, stores empty trees; see `C24.empty_tree_hides_chunk`. A file of the one byte
`0xA0` beside an empty directory that sorts before it is lost, in any repository and though no two
byte strings that take part hash alike. -/

def planE : Plan ObjectId := Demo.planOf
  (copyPlan Demo.codec Demo.env Demo.world0 (Check.opened C24.repoE) Demo.src0 (Demo.snapsOf C24.repoE)
    (fun _ => true) false)

theorem planE_eq : copyPlan Demo.codec Demo.env Demo.world0 (Check.opened C24.repoE) Demo.src0
    (Demo.snapsOf C24.repoE) (fun _ => true) false = .ok planE := Demo.planOf_eq (by decide +kernel)

theorem runE : Check.run Demo.codec Demo.pruneIds Demo.world0 planE.start (sends planE.main) = true := by
  decide +kernel

theorem mainE : planE.main = mainOf [] (sends planE.main) := by decide +kernel

theorem postsE : planE.posts = [C24.snapE].map Post.putSnap := by decide +kernel

theorem treesE : ∀ bs ∈ Check.involved Demo.world0 (mainOf [] (sends planE.main)), ∀ b ∈ bs,
    b.kind = .tree → b.id = C24.snapE.tree → b.data = Demo.codec.encTree C24.rootE := by
  decide +kernel

theorem chunksE : ∀ bs ∈ Check.involved Demo.world0 (mainOf [] (sends planE.main)), ∀ b ∈ bs,
    b.kind = .chunk → b.id ≠ C24.chunkE.id := by
  decide +kernel

def blobsE : List (Blob ObjectId) :=
  Check.blobs C24.repoE ++
    copyTrees Demo.codec (Check.opened C24.repoE) (Demo.snapsOf C24.repoE) (fun _ => true)

theorem blobsE_hash : ∀ b ∈ blobsE, ∀ b' ∈ emptyBlob Demo.codec :: blobsE,
    Demo.codec.hash b.data = Demo.codec.hash b'.data → b.data = b'.data := by decide +kernel

theorem puts_packs (l : List (Snapshot Id)) (ids : Ids Id) (R : Repo Id) :
    ((l.map Post.putSnap).foldl (applyPost ids) R).packs = R.packs := by
  induction l generalizing R with
  | nil => rfl
  | cons sn l ih => rw [List.map_cons, List.foldl_cons, ih]; rfl

/-- Copying everything from a repository in good order to an empty one can leave there a snapshot
that cannot be read. No two strings that take part hash alike: of what `copied_partial` asks only
the `kind` of `Unmixed` fails. -/
theorem empty_tree_hides_chunk :
    CopyOk Demo.codec Demo.env Demo.pruneIds C24.repoE Demo.world0 (Check.opened C24.repoE) Demo.src0
      (Demo.snapsOf C24.repoE) ∧
    copyPlan Demo.codec Demo.env Demo.world0 (Check.opened C24.repoE) Demo.src0
      (Demo.snapsOf C24.repoE) (fun _ => true) false = .ok planE ∧
    (∀ b b', (Has Demo.codec C24.repoE b ∨
        b ∈ copyTrees Demo.codec (Check.opened C24.repoE) (Demo.snapsOf C24.repoE) (fun _ => true)) →
      (Has Demo.codec C24.repoE b' ∨
        b' ∈ copyTrees Demo.codec (Check.opened C24.repoE) (Demo.snapsOf C24.repoE) (fun _ => true)) →
      Demo.codec.hash b.data = Demo.codec.hash b'.data → b.data = b'.data) ∧
    PacksDiffer Demo.pruneIds Demo.world0 planE.main ∧
    IndexOk (liveCfg Demo.pruneIds 4 planE.start) Demo.world0.repo (sends planE.main) ∧
    (∃ w', Finished (liveCfg Demo.pruneIds 4 planE.start) Demo.world0 planE.main planE.posts w') ∧
    ∀ w', Finished (liveCfg Demo.pruneIds 4 planE.start) Demo.world0 planE.main planE.posts w' →
      (Demo.pruneIds.snapId C24.snapE, C24.snapE) ∈ w'.repo.snapshots ∧
      ¬ Readable Demo.codec w'.repo C24.snapE := by
  have hH : Healthy Demo.codec Demo.pruneIds Demo.world0.repo := Demo.healthy_empty _ _
  refine ⟨copyOk_of C24.healthyE, planE_eq, ?_, Check.packsDiffer_sound (by decide +kernel), index0 (by decide +kernel), ?_, ?_⟩
  · have hm : ∀ b, (Has Demo.codec C24.repoE b ∨
        b ∈ copyTrees Demo.codec (Check.opened C24.repoE) (Demo.snapsOf C24.repoE) (fun _ => true)) →
        b ∈ blobsE := by
      rintro b (h | h)
      · exact List.mem_append_left _ (Check.has_iff.mp h).2
      · exact List.mem_append_right _ h
    exact fun b b' h h' => blobsE_hash b (hm b h) b' (List.mem_cons_of_mem _ (hm b' h'))
  · obtain ⟨t, ht, hj⟩ := Check.run_finishes (cores := 4) hH runE (Nat.le_refl 4)
    exact ⟨_, .mk t (by rw [mainE]; exact ht) hj⟩
  · intro w' h
    cases h with
    | mk s hs hj =>
      rw [mainE] at hs
      have hpk := Check.run_packs hH runE hs
      have hsn : s.world.repo.snapshots = Demo.world0.repo.snapshots := by
        obtain ⟨h1, _⟩ := Check.run_sound (cores := 4) hH runE
        exact (effect h1 (Check.run_reachable hs)).snaps
      simp only [liveCfg_ids]
      rw [postsE]
      have hsrt : BMap.Sorted s.world.repo.snapshots := by rw [hsn]; exact BMap.sorted_nil
      refine ⟨(puts_snaps [C24.snapE] hsrt (by simp)).1 _ List.mem_cons_self, ?_⟩
      have hin : ∀ b, Has Demo.codec (([C24.snapE].map Post.putSnap).foldl (applyPost Demo.pruneIds) s.world.repo) b →
          ∃ bs ∈ Check.involved Demo.world0 (mainOf [] (sends planE.main)), b ∈ bs := by
        rintro b ⟨_, p, bs, _, h2, h3⟩
        rw [puts_packs] at h2
        exact ⟨bs, (hpk p bs h2).2, h3⟩
      exact Check.no_chunk (C := Demo.codec) (s := C24.snapE) (t := C24.rootE) (c := C24.chunkE.id) C24.decE
        C24.rootE_ne (fun b hb => by obtain ⟨bs, h1, h2⟩ := hin b hb; exact treesE bs h1 b h2) C24.fileE
        List.mem_cons_self (fun b hb => by obtain ⟨bs, h1, h2⟩ := hin b hb; exact chunksE bs h1 b h2)

end Backpak.C30
