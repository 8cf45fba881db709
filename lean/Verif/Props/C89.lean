import Verif.Lemmas.Mend
import Verif.Props.C29

/-!
# C89 - Mending a repository that has lost packs

Packs of a repository in good order are gone. Rebuild-index makes it usable again, and a snapshot is as it was exactly
if nothing it needs is gone; forgetting the others leaves a repository in good order. A backup of files that are on disk
with the lost bytes brings back the snapshots that needed them - but only if it reads the files: one that looks
unmodified is taken over with the lost chunks, and the new snapshot cannot be read either.
-/

namespace Backpak.C89

open Spec Pipeline
open Beside (Orderly)
open C86 (Uses InPacks)

variable {Id : Type} [LinearOrder Id] {C : Codec Id} {cut : Bytes → Nat} {ids : Ids Id} {cores : Nat}
  {src : Source Id} {snaps : List (Snap Id)} {a : BackupArgs} {plan : Plan Id}

/-! ## Rebuilding the index -/

/-- What is left of a repository `R` after some of its packs have gone, and whatever has become of its indexes. Packs in
the working directory have the names of their contents. -/
structure Lost (ids : Ids Id) (R : Repo Id) (w : World Id) : Prop where
  packs : ∀ e ∈ w.repo.packs, e ∈ R.packs
  listed : ∀ p bs, (p, bs) ∈ w.repo.packs → Listed R.indexes p (Pack.manifestOf bs)
  snaps : w.repo.snapshots = R.snapshots
  packs_sorted : BMap.Sorted w.repo.packs
  indexes_sorted : BMap.Sorted w.repo.indexes
  names : ∀ p bs, (p, bs) ∈ w.cwd.packs → p = ids.packId (Pack.manifestOf bs)
  same : ∀ p bs bs', (p, bs) ∈ w.cwd.packs → (p, bs') ∈ w.repo.packs → bs = bs'

omit [LinearOrder Id] in
theorem Lost.has [LinearOrder Id] {R : Repo Id} {w : World Id} (h : Lost ids R w) {b : Blob Id} (hb : InPacks C w.repo b) :
    Has C R b := by
  obtain ⟨h1, p, bs, h2, h3⟩ := hb
  exact ⟨h1, p, bs, h.listed p bs h2, h.packs _ h2, h3⟩

/-- Once the index has been rebuilt, commands can open the repository, it is in good order but for snapshots that need
what is gone, a backup can follow, and what can be found is exactly what is left. -/
theorem rebuilt {R : Repo Id} {w w' : World Id} (hR : Healthy C ids R) (h : Lost ids R w) (hnew : C28.NewName ids w.repo)
    (hr : Rebuild.Finished ids true w w') :
    Orderly C ids w'.repo ∧ Leftover C ids w' ∧ (∃ src, Opens w'.repo src) ∧ w'.repo.snapshots = R.snapshots ∧
    ∀ b, Has C w'.repo b ↔ InPacks C w.repo b := by
  obtain ⟨h1, h2⟩ := C28.finished_repo h.packs_sorted h.indexes_sorted hnew hr
  obtain ⟨h3, _, h4⟩ := C28.all_listed w w' h.packs_sorted h.indexes_sorted hnew hr
  have hG : Ledger C (fun p bs => (p, bs) ∈ w.repo.packs) :=
    hR.sound.ledger.mono fun p bs hb => ⟨h.listed p bs hb, h.packs _ hb⟩
  have hx : BMap.Sorted w'.repo.indexes := by rw [h1]; simp [BMap.Sorted, BMap.keys]
  have hp : BMap.Sorted w'.repo.packs := by rw [h3]; exact h.packs_sorted
  have hS : Sound C w'.repo := (hG.mono (fun p bs hb => by rw [← h3]; exact hb.2)).sound hp hx (by
    intro p m hl
    obtain ⟨bs, h5, h6⟩ := (h4 p m).mp hl
    exact ⟨bs, by rw [h3]; exact h5, h6.symm⟩)
  have hidx : ∀ i x, (i, x) ∈ w'.repo.indexes → i = ids.indexId (C28.whole w.repo) ∧ x = C28.whole w.repo := by
    intro i x hi
    rw [h1] at hi
    simpa using hi
  refine ⟨⟨hS.packs_sorted, hS.indexes_sorted, BMap.sorted_nil, fun p bs hb => ?_, fun i x hi => ?_, fun i x hi => ?_,
    hS.present, hS.distinct, hS.once, hS.one_kind, hS.hashes, hS.trees, hS.full, fun i s hi => by cases hi⟩, ?_,
    opens_exists hS, by rw [h1]; exact h.snaps, C86.found_iff h.packs_sorted h.indexes_sorted hnew hr⟩
  · exact hR.pack_names p bs (h.packs _ (by rw [← h3]; exact hb))
  · obtain ⟨rfl, rfl⟩ := hidx i x hi
    rfl
  · obtain ⟨rfl, rfl⟩ := hidx i x hi
    exact C28.sorted_whole h.packs_sorted
  · have hwip : w'.cwd.wip = some (C28.whole w.repo) := by rw [h2]; rfl
    have hcp : w'.cwd.packs = w.cwd.packs := by rw [h2]; rfl
    refine ⟨fun p bs hb => h.names p bs (by rw [← hcp]; exact hb), ?_, ?_, ?_, hG.mono ?_⟩
    · rintro x hx i hi y ⟨hy, hs⟩ e he
      rw [hwip] at hx
      cases hx
      obtain ⟨rfl, rfl⟩ := hidx i y hy
      exact he
    · intro x hx
      rw [hwip] at hx
      cases hx
      exact C28.sorted_whole h.packs_sorted
    · intro x p m hx hm
      rw [hwip] at hx
      cases hx
      obtain ⟨bs, h5, h6⟩ := C28.mem_whole.mp hm
      exact ⟨bs, .inr (by rw [h3]; exact h5), h6⟩
    · rintro p bs (h5 | ⟨x, hx, hm, h5 | h5⟩)
      · rw [← h3]; exact h5.2
      · rw [hwip] at hx
        cases hx
        obtain ⟨cs, h6, _⟩ := C28.mem_whole.mp hm
        rw [h.same p bs cs (by rw [← hcp]; exact h5) h6]
        exact h6
      · rw [← h3]; exact h5

/-- What a root that is held stands on can all be found. -/
theorem uses_has {R R' : Repo Id} (hS : Sound C R) (hold : ∀ b, Has C R' b → Has C R b) {root : Id} {d : Dir Bytes}
    (hd : Holds C R' root d) {b : Blob Id} (hu : Uses C R root b) : Has C R' b := by
  obtain ⟨hb, u, t, hr, ht, hc⟩ := hu
  obtain ⟨_, d', t', ht', hd'⟩ := reaches_kept hS (fun b hb => .inl (hold b hb)) hr hd
  cases hS.treeAt_one ht (has_mono_tree hold ht')
  rcases hc with ⟨h0, rfl⟩ | ⟨hk, n, cs, md, hm, hi⟩
  · exact ht'.2.2.resolve_left h0
  · obtain ⟨x, hx⟩ := holds_chunk hd' (C81.mem_chunks.mpr ⟨n, cs, md, hm, hi⟩)
    rw [← hS.has_one (hold _ hx) hb rfl]
    exact hx

/-- A snapshot can be read exactly if all that it needs is left, and is then what it was. -/
theorem readable_iff {R : Repo Id} {w w' : World Id} (hR : Healthy C ids R) (h : Lost ids R w)
    (hnew : C28.NewName ids w.repo) (hr : Rebuild.Finished ids true w w') {i : Id} {sn : Snapshot Id}
    (hsn : (i, sn) ∈ R.snapshots) :
    (Readable C w'.repo sn ↔ ∀ b, Uses C R sn.tree b → InPacks C w.repo b) ∧
    ∀ d, Holds C w'.repo sn.tree d → Holds C R sn.tree d := by
  obtain ⟨_, _, _, _, hf⟩ := rebuilt hR h hnew hr
  have hold : ∀ b, Has C w'.repo b → Has C R b := fun b hb => h.has ((hf b).mp hb)
  refine ⟨⟨?_, fun hu => ?_⟩, fun d hd => has_mono_holds hold hd⟩
  · rintro ⟨d, hd⟩ b hb
    exact (hf b).mp (uses_has hR.sound hold hd hb)
  · obtain ⟨d, hd⟩ := hR.readable i sn hsn
    exact ⟨d, C86.holds_of_uses hd fun b hb => (hf b).mpr (hu b hb)⟩

/-- Once the snapshots that cannot be read are gone, the repository is in good order. -/
theorem forgetting_mends {R R' : Repo Id} (h : Orderly C ids R) {gone : Id → Prop} (hg : C29.Removed R R' gone)
    (hs : BMap.Sorted R'.snapshots) (hall : ∀ i sn, (i, sn) ∈ R.snapshots → ¬ Readable C R sn → gone i) :
    Healthy C ids R' := by
  obtain ⟨p1, p2, p3⟩ := hg
  have h' : Orderly C ids R' := by
    have : ({ R' with snapshots := [] } : Repo Id) = { R with snapshots := [] } := by rw [p1, p2]
    unfold Orderly
    rw [this]
    exact h
  refine Mend.orderly_healthy h' hs fun i sn hi => ?_
  obtain ⟨h1, h2⟩ := (p3 i sn).mp hi
  obtain ⟨d, hd⟩ := not_not.mp fun hn => h2 (hall i sn h1 hn)
  refine ⟨d, has_mono_holds (R := R) (fun b hb => ?_) hd⟩
  unfold Has at hb ⊢
  rwa [p1, p2]

/-! ## Backing up again -/

/-- A backup onto such a repository, when it has finished with a new snapshot: that stands for the files that were walked;
nothing that could be found is lost, and whatever else the walk came by can be found too. -/
theorem backup_adds_partial {w w' : World Id} (hO : Mend.Over C cut ids w src snaps a)
    (hN : NoClash C cut ids cores w src snaps a plan) (hp : backupPlan C cut w src snaps a = .ok plan)
    (hsorted : BMap.Sorted w.repo.snapshots) (sn : Snapshot Id) (hsn : plan.post = .ok [.putSnap sn])
    (h : Finished (C13.cfg ids cores a plan) w plan.main plan.posts w') :
    (ids.snapId sn, sn) ∈ w'.repo.snapshots ∧
    (sn.time = a.now ∧ sn.tz = a.tz ∧ sn.author = a.author ∧ sn.tags = a.tags ∧ sn.paths = a.paths) ∧
    Holds C w'.repo sn.tree (arrange (keep a.filter a.pathOf a.fs)) ∧
    Orderly C ids w'.repo ∧
    (∀ i s, (i, s) ∈ w.repo.snapshots → i ≠ ids.snapId sn → (i, s) ∈ w'.repo.snapshots) ∧
    ∀ b, Has C w.repo b ∨ b ∈ offered C cut src snaps a → Has C w'.repo b := by
  have hd : a.dryRun = false := by
    obtain ⟨F, known, here, root, L, _, _, _, _, _, _, hpost⟩ := plan_ok hp
    rw [hsn] at hpost
    rcases post_cases hpost.symm with h1 | ⟨h1, _⟩
    · cases h1
    · exact h1
  have hcfg : C13.cfg ids cores a plan = liveCfg ids cores plan.start := by simp [C13.cfg, liveCfg, hd]
  have hposts : plan.posts = [.putSnap sn] := by unfold Plan.posts; rw [hsn]
  cases h with
  | mk s hs hj =>
    rw [hcfg] at hs
    obtain ⟨g1, _, g3, g4, g5⟩ := hO.run hN hp hd hs
    obtain ⟨g5, root, sent, h1, h2⟩ := g5 hj
    rw [hsn] at h1
    rcases post_cases h1.symm with h3 | ⟨_, h3⟩
    · cases h3
    · cases h3
      rw [← g3] at hsorted
      rw [hposts]
      refine ⟨(BMap.mem_insert_iff hsorted).mpr (.inl ⟨rfl, rfl⟩), ⟨rfl, rfl, rfl, rfl, rfl⟩, holds_snaps h2, g1, ?_, ?_⟩
      · intro i s' hi hne
        exact (BMap.mem_insert_iff hsorted).mpr (.inr ⟨hne, by rw [g3]; exact hi⟩)
      · rintro b (hb | hb)
        · exact g4 b hb
        · exact g5 b hb

/-- So a snapshot is regained if the walk came by whatever it had lost. -/
theorem regains {R : Repo Id} {w w' : World Id} (hO : Mend.Over C cut ids w src snaps a)
    (hN : NoClash C cut ids cores w src snaps a plan) (hp : backupPlan C cut w src snaps a = .ok plan)
    (hsorted : BMap.Sorted w.repo.snapshots) (sn : Snapshot Id) (hsn : plan.post = .ok [.putSnap sn])
    (h : Finished (C13.cfg ids cores a plan) w plan.main plan.posts w') {root : Id} {d : Dir Bytes}
    (hd : Holds C R root d) (hu : ∀ b, Uses C R root b → Has C w.repo b ∨ b ∈ offered C cut src snaps a) :
    Holds C w'.repo root d :=
  C86.holds_of_uses hd fun b hb => (backup_adds_partial hO hN hp hsorted sn hsn h).2.2.2.2.2 b (hu b hb)

/-- What `Over` asks of files that look unmodified holds if there are none: there is no snapshot of the same paths... -/
theorem reuse_no_parent {P : List Id → Bytes → Prop} (hpar : parentSnapshot a.paths snaps = none) (F : Forest Id) :
    Reuse P F (((parentSnapshot a.paths snaps).map (·.tree)).bind (fun id => F.get? id)) (keep a.filter a.pathOf a.fs) := by
  rw [hpar]
  exact reuse_none _ _ _

/-- ... or every file has been touched since the parent was made. -/
theorem reuse_touched {P : List Id → Bytes → Prop} {F : Forest Id} {prev : Option (Tree Id)} {d : Dir Bytes}
    (h : Reuse (fun _ _ => False) F prev d) : Reuse P F prev d := h.mono fun _ _ h => h.elim

/-! ## What stays lost -/

/-- A parent whose trees are all there, but not its chunks; the files are those it stood for, with the same metadata. Then
the backup sends nothing; its snapshot has the parent's tree. -/
theorem unmodified_sends_nothing {R : Repo Id} {w : World Id} (hS : Sound C w.repo) (hL : Leftover C ids w) (ho : Opens w.repo src)
    (hp : backupPlan C cut w src snaps a = .ok plan) (p : Snapshot Id) (hpar : parentSnapshot a.paths snaps = some p)
    (hsame : Holds C R p.tree (arrange (keep a.filter a.pathOf a.fs)))
    (htrees : ∀ b, Uses C R p.tree b → b.kind = .tree → Has C w.repo b) :
    sends plan.main = [] ∧ plan.post = backupPost C a snaps plan.start [] p.tree := by
  obtain ⟨F, known, here, root, L, hF, hk, hr, hb, hoff, hm, hpost⟩ := plan_ok hp
  rw [hpar] at hF hb
  unfold parentForest at hF
  simp only at hF
  cases hf : forestFromRoot C src p.tree (newTreeCache C) with
  | error e => rw [hf] at hF; cases hF
  | ok r =>
    rw [hf] at hF
    obtain ⟨f, cache⟩ := r
    have hF : f = F := by cases hF; rfl
    subst hF
    have hex := C23.forest_exact hS ho p.tree (newTreeCache C) f cache newTreeCache_ok hf
    have htree : ∀ u t, Reaches (TreeAt C R) p.tree u → TreeAt C R u t → TreeAt C w.repo u t := by
      intro u t h1 h2
      refine ⟨h2.1, h2.2.1, ?_⟩
      by_cases h0 : t = []
      · exact .inl h0
      · exact h2.2.2.imp id fun hb => htrees _ ⟨hb, u, t, h1, h2, .inl ⟨h0, rfl⟩⟩ rfl
    have hback : ∀ v u, Reaches (TreeAt C R) v u → (∀ x, Reaches (TreeAt C R) v x → Reaches (TreeAt C R) p.tree x) →
        Reaches (TreeAt C w.repo) v u := by
      intro v u h
      induction h with
      | refl => exact fun _ => .refl
      | step h1 h2 _ ih =>
        intro hx
        exact .step (htree _ _ (hx _ .refl) h1) h2 (ih fun x h => hx x (.step h1 h2 h))
    obtain ⟨t0, ht0, hd0⟩ := hsame
    have hin : HeldIn (FileHolds C R) f t0 (arrange (keep a.filter a.pathOf a.fs)) :=
      rel_in_forest (fun id t h1 h2 => (hex id t).mpr ⟨hback _ _ h1 (fun _ h => h), htree id t h1 h2⟩) hd0
        (fun x hx => reaches_sub .refl ht0 hx)
    have hok : ∀ id u, f.get? id = some u → BMap.Sorted u ∧ C.hash (C.encTree u) = id := by
      intro id u hu
      obtain ⟨_, h1, h2, _⟩ := (hex id u).mp hu
      exact ⟨h1.sorted, h2⟩
    obtain ⟨hroot, hbs⟩ := Again.backup_same hok ((hex _ _).mpr ⟨.refl, htree _ _ .refl ht0⟩) hin hb
    subst hroot
    have hsent : (L.foldl offer ⟨BMap.keys known ++ listedIds plan.start, []⟩).sent = [] := by
      refine C69.sent_none (fun b hbL => ?_)
      obtain ⟨u, hu, hget, rfl⟩ := hbs b hbL
      obtain ⟨_, _, _, h3⟩ := (hex _ _).mp hget
      obtain ⟨q, bs, h1, h2, h4⟩ := (hS.has_iff _).mp (h3.resolve_left hu)
      exact (packed_iff hS hL ho hk hr _).mpr ⟨_, ⟨q, bs, .inl ⟨h1, h2⟩, h4⟩, rfl⟩
    rw [hsent] at hm hpost
    refine ⟨?_, hpost⟩
    rw [hm]
    split
    · rfl
    · exact sends_mainOf here []

/-- Whatever is in a pack of the repository at any instant of a run was in one before, or in the working directory, or is
sent by the run. -/
theorem origin {c : Cfg Id} {w : World Id} {main : List (Op Id)} {s : State Id}
    (hr : ∀ p bs, (p, bs) ∈ w.repo.packs → p = c.ids.packId (Pack.manifestOf bs))
    (hc : ∀ p bs, (p, bs) ∈ w.cwd.packs → p = c.ids.packId (Pack.manifestOf bs)) (hps : BMap.Sorted w.repo.packs)
    (hxs : BMap.Sorted w.repo.indexes) (h : Reachable c w main s) {p : Id} {bs : Pack Id} {b : Blob Id}
    (hp : (p, bs) ∈ s.world.repo.packs) (hb : b ∈ bs) :
    (∃ p bs, ((p, bs) ∈ w.repo.packs ∨ (p, bs) ∈ w.cwd.packs) ∧ b ∈ bs) ∨ b ∈ sends main := by
  have h' : Reachable { c with allowed := Involved w main } w main s :=
    reachable_allowed (c := c) (c' := { c with allowed := Involved w main }) rfl rfl rfl rfl (fun cur hc => .inr (.inr hc)) h
  have hn := named (c := { c with allowed := Involved w main }) ⟨fun p bs h => ⟨hc p bs h, .inr (.inl ⟨p, h⟩)⟩,
    fun p bs h => ⟨hr p bs h, .inl ⟨p, h⟩⟩, hps, hxs⟩ h'
  rcases (hn.repo p bs hp).2 with ⟨q, hq⟩ | ⟨q, hq⟩ | hf
  · exact .inl ⟨q, bs, .inl hq, hb⟩
  · exact .inl ⟨q, bs, .inr hq, hb⟩
  · obtain ⟨_, k, hf⟩ := hf
    exact .inr (List.mem_of_mem_filter (hf.subset hb))

/-- A blob that is in some pack of the repository or of the working directory. -/
def OnDisk (w : World Id) (b : Blob Id) : Prop :=
  ∃ p bs, ((p, bs) ∈ w.repo.packs ∨ (p, bs) ∈ w.cwd.packs) ∧ b ∈ bs

/-- What can be found at any instant of a backup was on disk before, or is sent. -/
theorem found_origin {w w' : World Id}
    (hn : ∀ p bs, (p, bs) ∈ w.repo.packs ∨ (p, bs) ∈ w.cwd.packs → p = ids.packId (Pack.manifestOf bs))
    (hps : BMap.Sorted w.repo.packs) (hxs : BMap.Sorted w.repo.indexes)
    (hp : backupPlan C cut w src snaps a = .ok plan)
    (h : Instant (C13.cfg ids cores a plan) w plan.main plan.posts w') {b : Blob Id} (hb : Has C w'.repo b) :
    OnDisk w b ∨ b ∈ sends plan.main := by
  have key : ∀ s : State Id, Reachable (C13.cfg ids cores a plan) w plan.main s → ∀ q bs, (q, bs) ∈ s.world.repo.packs →
      b ∈ bs → OnDisk w b ∨ b ∈ sends plan.main := fun s hs q bs h1 h2 =>
    origin (fun p bs h => hn p bs (.inl h)) (fun p bs h => hn p bs (.inr h)) hps hxs hs h1 h2
  obtain ⟨_, q, bs, _, h2, h3⟩ := hb
  cases h with
  | during s hs => exact key s hs q bs h2 h3
  | after s done rest hs _ he =>
    refine key s hs q bs ?_ h3
    obtain ⟨F, known, here, root, L, _, _, _, _, _, _, hpost⟩ := plan_ok hp
    rcases C13.posts_cases ⟨_, _, _, hpost⟩ with h4 | ⟨sn, _, _, h4⟩
    · rw [h4] at he
      obtain ⟨rfl, _⟩ := List.append_eq_nil_iff.mp he.symm
      exact h2
    · rw [h4] at he
      cases done with
      | nil => exact h2
      | cons x done =>
        simp only [List.cons_append, List.cons.injEq] at he
        obtain ⟨rfl, he⟩ := he
        obtain ⟨rfl, _⟩ := List.append_eq_nil_iff.mp he.symm
        exact h2

/-- Then the parent's tree cannot be read at any instant of the backup, nor when it has finished: and that is the tree of
the new snapshot. -/
theorem unmodified_stays_lost {R : Repo Id} {w w' : World Id} (hR : Sound C R) (hS : Sound C w.repo)
    (hn : ∀ p bs, (p, bs) ∈ w.repo.packs → p = ids.packId (Pack.manifestOf bs)) (hL : Leftover C ids w)
    (ho : Opens w.repo src) (hp : backupPlan C cut w src snaps a = .ok plan) (p : Snapshot Id)
    (hpar : parentSnapshot a.paths snaps = some p) (hsame : Holds C R p.tree (arrange (keep a.filter a.pathOf a.fs)))
    (htrees : ∀ b, Uses C R p.tree b → b.kind = .tree → Has C w.repo b) (hdisk : ∀ b, OnDisk w b → Has C R b)
    {b : Blob Id} (hu : Uses C R p.tree b) (hlost : ¬ OnDisk w b)
    (h : Instant (C13.cfg ids cores a plan) w plan.main plan.posts w') :
    (∀ sn, plan.post = .ok [.putSnap sn] → sn.tree = p.tree) ∧ ¬ ∃ d, Holds C w'.repo p.tree d := by
  obtain ⟨h1, h2⟩ := unmodified_sends_nothing hS hL ho hp p hpar hsame htrees
  constructor
  · intro sn hsn
    rw [hsn] at h2
    rcases post_cases h2.symm with h3 | ⟨_, h3⟩
    · cases h3
    · cases h3
      rfl
  · rintro ⟨d, hd⟩
    have hf : ∀ b, Has C w'.repo b → OnDisk w b := fun b hb => by
      have := found_origin (fun p bs h => h.elim (hn p bs) (hL.names p bs)) hS.packs_sorted hS.indexes_sorted hp h hb
      rw [h1] at this
      simpa using this
    exact hlost (hf b (uses_has hR (fun b hb => hdisk b (hf b hb)) hd hu))

/-- If a tree of the parent is gone, the backup fails before it has done anything. -/
theorem lost_tree_refuses {R : Repo Id} {w : World Id} (hR : Sound C R) (hS : Sound C w.repo) (ho : Opens w.repo src)
    (hold : ∀ b, Has C w.repo b → Has C R b) (p : Snapshot Id) (hpar : parentSnapshot a.paths snaps = some p)
    {b : Blob Id} (hu : Uses C R p.tree b) (hk : b.kind = .tree) (hlost : ¬ Has C w.repo b) :
    ∃ e, backupPlan C cut w src snaps a = .error e := by
  cases hp : backupPlan C cut w src snaps a with
  | error e => exact ⟨e, rfl⟩
  | ok plan =>
    exfalso
    obtain ⟨F, known, here, root, L, hF, _⟩ := plan_ok hp
    rw [hpar] at hF
    unfold parentForest at hF
    simp only at hF
    cases hf : forestFromRoot C src p.tree (newTreeCache C) with
    | error e => rw [hf] at hF; cases hF
    | ok r =>
      obtain ⟨h1, _⟩ := (C23.succeeds_iff hS ho p.tree (newTreeCache C) newTreeCache_ok).mp ⟨r, hf⟩
      obtain ⟨hb, u, t, hr, ht, hc⟩ := hu
      have hback : ∀ v u, Reaches (TreeAt C R) v u →
          (∀ x, Reaches (TreeAt C w.repo) v x → Reaches (TreeAt C w.repo) p.tree x) → Reaches (TreeAt C w.repo) v u := by
        intro v u h
        induction h with
        | refl => exact fun _ => .refl
        | step h2 h3 _ ih =>
          intro hx
          obtain ⟨t', ht'⟩ := h1 _ (hx _ .refl)
          cases hR.treeAt_one h2 (has_mono_tree hold ht')
          exact .step ht' h3 (ih fun x h => hx x (.step ht' h3 h))
      obtain ⟨t', ht'⟩ := h1 u (hback _ _ hr fun _ h => h)
      cases hR.treeAt_one ht (has_mono_tree hold ht')
      rcases hc with ⟨h0, rfl⟩ | ⟨h3, _⟩
      · exact hlost (ht'.2.2.resolve_left h0)
      · rw [h3] at hk
        cases hk

/-- As long as the index has not been rebuilt, the repository can be opened as before. -/
theorem still_opens {R R' : Repo Id} (hR : Sound C R) (hx : R'.indexes = R.indexes) (hps : BMap.Sorted R'.packs) :
    Opens R' (Check.opened R') := by
  obtain ⟨x, bm, h1, h2, _⟩ := opens_with hR
  rw [← hx] at h1
  unfold Check.opened
  simp only [h1, h2]
  refine ⟨⟨R'.indexes, .refl _, h1⟩, h2, ?_, ?_⟩
  · intro p bs hp
    refine ⟨⟨Pack.contentOf bs, false⟩, ?_, List.prefix_refl _⟩
    simp only [sourceOf, (BMap.get?_eq_some_iff hps).mpr hp]
  · intro p hp
    refine ⟨"no such pack", ?_⟩
    have : R'.packs.get? p = none := BMap.get?_eq_none_iff.mpr hp
    simp only [sourceOf, this]

/-- As long as the index has not been rebuilt, what is lost cannot be found again at any instant of any backup: its IDs
are listed, so it is not sent. -/
theorem still_listed_stays_lost {R : Repo Id} {w w' : World Id} (hR : Sound C R) (hx : w.repo.indexes = R.indexes)
    (hn : ∀ p bs, (p, bs) ∈ w.repo.packs ∨ (p, bs) ∈ w.cwd.packs → p = ids.packId (Pack.manifestOf bs))
    (hps : BMap.Sorted w.repo.packs) (ho : Opens w.repo src) (hp : backupPlan C cut w src snaps a = .ok plan)
    (h : Instant (C13.cfg ids cores a plan) w plan.main plan.posts w') {b : Blob Id} (hb : Has C R b)
    (hlost : ¬ OnDisk w b) : b ∉ sends plan.main ∧ ¬ Has C w'.repo b := by
  have hns : b ∉ sends plan.main := by
    intro hm
    obtain ⟨F, known, here, root, L, hF, hk, hr, hbb, hoff, hmain, hpost⟩ := plan_ok hp
    have hsent : sends plan.main = (L.foldl offer ⟨BMap.keys known ++ listedIds plan.start, []⟩).sent := by
      rw [hmain]
      split
      · exact sends_mainOf [] _
      · exact sends_mainOf here _
    obtain ⟨new, h1, _, _, h4, _⟩ := offer_all L ⟨BMap.keys known ++ listedIds plan.start, []⟩
    rw [hsent, h1, List.nil_append] at hm
    refine h4 b hm (List.mem_append_left _ ?_)
    obtain ⟨src', ho'⟩ := opens_exists hR
    have ho2 : Opens R ⟨src.index, src.blobMap, src'.read⟩ :=
      ⟨by rw [← hx]; exact ho.master, ho.blobMap, ho'.read, ho'.absent⟩
    obtain ⟨_, _, _, hmem⟩ := (Index.table_iff (fun _ _ => ()) src.index.packs [] BMap.sorted_nil).1 known hk
    obtain ⟨_, q, bs, h5, _, h7⟩ := hb
    exact BMap.mem_keys_of_mem (v := ()) ((hmem b.id ()).mpr (.inr ⟨q, _, Pack.entryOf b,
      (opens_mem hR ho2 q _).mpr h5, List.mem_map.mpr ⟨b, h7, rfl⟩, rfl, rfl⟩))
  refine ⟨hns, fun hh => ?_⟩
  rcases found_origin hn hps (by rw [hx]; exact hR.indexes_sorted) hp h hh with h1 | h1
  · exact hlost h1
  · exact hns h1

/-! ## Examples -/

/-- Index names that tell how many packs and superseded indexes there are, snapshot names that tell the time. -/
def ids89 : Ids ObjectId := { Demo.ids with
  indexId := fun x => Demo.hash [1, UInt8.ofNat x.packs.length, UInt8.ofNat x.supersedes.length]
  snapId := fun s => Demo.hash (2 :: UInt8.ofNat s.time.toNat :: s.tree.digest) }

/-- Two snapshots, each blob in a pack of its own. -/
def repo89 : Repo ObjectId :=
  Demo.repoOf ids89 [[Demo.chunkA], [Demo.chunkB], [Demo.treeA], [Demo.treeB]] [Demo.snapA, Demo.snapB]

theorem healthy89 : Healthy Demo.codec ids89 repo89 := Check.healthy_sound (k := 2) (by decide +kernel)

/-- Without the chunk of the later snapshot. -/
def less : Repo ObjectId :=
  ⟨repo89.packs.filter fun e => decide (e.2 ≠ [Demo.chunkB]), repo89.indexes, repo89.snapshots⟩

theorem less_listed : ∀ e ∈ less.packs, e ∈ repo89.packs ∧ (e.1, Pack.manifestOf e.2) ∈ Check.listed repo89 := by
  decide +kernel

theorem less_sorted : BMap.Sorted less.packs ∧ BMap.Sorted less.indexes := by
  unfold BMap.Sorted
  decide +kernel

theorem less_snaps : less.snapshots = repo89.snapshots := by decide +kernel

theorem lost89 : Lost ids89 repo89 (Demo.clean less) where
  packs e he := (less_listed e he).1
  listed _ _ h := Check.mem_listed.mp (less_listed _ h).2
  snaps := less_snaps
  packs_sorted := less_sorted.1
  indexes_sorted := less_sorted.2
  names _ _ h := nomatch h
  same _ _ _ h := nomatch h

theorem new89 : C28.NewName ids89 less := C86.newName_sound (by decide +kernel)

/-- The same with its index rebuilt. -/
def again : Repo ObjectId := ⟨less.packs, [(ids89.indexId (C28.whole less), C28.whole less)], less.snapshots⟩

theorem rebuilt89 : ∃ w', Rebuild.Finished ids89 true (Demo.clean less) w' ∧ w'.repo = again := by
  obtain ⟨w', h⟩ := C86.can_rebuild (ids := ids89) less ⟨none, [], []⟩ lost89.packs_sorted (by decide +kernel)
  exact ⟨w', h, (C28.finished_repo lost89.packs_sorted lost89.indexes_sorted new89 h).1⟩

theorem orderly89 : Orderly Demo.codec ids89 again := by
  obtain ⟨w', h, he⟩ := rebuilt89
  rw [← he]
  exact (rebuilt healthy89 lost89 new89 h).1

theorem snaps89 : (ids89.snapId Demo.snapA, Demo.snapA) ∈ repo89.snapshots ∧
    (ids89.snapId Demo.snapB, Demo.snapB) ∈ repo89.snapshots ∧ again.snapshots.length = 2 := by decide +kernel

theorem readA : Readable Demo.codec again Demo.snapA :=
  ⟨_, Check.dirAt_sound (d := (Check.dirAt Demo.codec again 3 Demo.snapA.tree).getD .nil) 3 (by decide +kernel)⟩

theorem unreadB : ¬ Readable Demo.codec again Demo.snapB := by
  have h1 : ∀ b ∈ Check.blobs again, b.kind = .tree → b.id = Demo.snapB.tree → b.data = Demo.codec.encTree (Demo.oneFile [98] Demo.chunkB) := by
    decide +kernel
  have h2 : ∀ b ∈ Check.blobs again, b.kind = .chunk → b.id ≠ Demo.chunkB.id := by decide +kernel
  exact Check.no_chunk (t := Demo.oneFile [98] Demo.chunkB) (n := [98]) (cs := [Demo.chunkB.id]) (c := Demo.chunkB.id)
    (md := Demo.fileMd 1 5) (by decide +kernel) (by decide +kernel) (fun b hb => h1 b (Check.has_iff.mp hb).2) (by decide +kernel)
    (by simp) (fun b hb => h2 b (Check.has_iff.mp hb).2)

theorem removed_of {R : Repo ObjectId} {m : BMap ObjectId (Snapshot ObjectId)} {gone : ObjectId → Prop}
    (h : ∀ i s, (i, s) ∈ m ↔ (i, s) ∈ R.snapshots ∧ ¬ gone i) : C29.Removed R ⟨R.packs, R.indexes, m⟩ gone := ⟨rfl, rfl, h⟩

/-- One snapshot is as it was and the other cannot be read; when that is forgotten, the repository is in good order. -/
example : Readable Demo.codec again Demo.snapA ∧ ¬ Readable Demo.codec again Demo.snapB ∧
    ¬ (∀ b, Uses Demo.codec repo89 Demo.snapB.tree b → InPacks Demo.codec less b) ∧
    forget (fun _ => true) false [(Demo.snapA, ids89.snapId Demo.snapA), (Demo.snapB, ids89.snapId Demo.snapB)] [ascii "LAST"] again =
      (⟨again.packs, again.indexes, [(ids89.snapId Demo.snapA, Demo.snapA)]⟩, true) ∧
    Healthy Demo.codec ids89 ⟨again.packs, again.indexes, [(ids89.snapId Demo.snapA, Demo.snapA)]⟩ := by
  refine ⟨readA, unreadB, ?_, by decide +kernel, ?_⟩
  · obtain ⟨w', h, he⟩ := rebuilt89
    refine fun hu => unreadB ?_
    rw [← he]
    exact (readable_iff healthy89 lost89 new89 h snaps89.2.1).1.mpr hu
  · refine forgetting_mends orderly89 (gone := fun i => i = ids89.snapId Demo.snapB) (removed_of ?_) ?_ ?_
    · have h : ∀ e, e ∈ again.snapshots ↔ e = (ids89.snapId Demo.snapA, Demo.snapA) ∨ e = (ids89.snapId Demo.snapB, Demo.snapB) := by
        have h1 : again.snapshots = [(ids89.snapId Demo.snapA, Demo.snapA), (ids89.snapId Demo.snapB, Demo.snapB)] ∨
          again.snapshots = [(ids89.snapId Demo.snapB, Demo.snapB), (ids89.snapId Demo.snapA, Demo.snapA)] := by decide +kernel
        intro e
        rcases h1 with h1 | h1 <;> rw [h1] <;> simp [or_comm]
      have hne : ids89.snapId Demo.snapA ≠ ids89.snapId Demo.snapB := by decide +kernel
      intro i s
      rw [h]
      simp only [List.mem_singleton, Prod.mk.injEq]
      constructor
      · rintro ⟨rfl, rfl⟩
        exact ⟨.inl ⟨rfl, rfl⟩, hne⟩
      · rintro ⟨h | h, hn⟩
        · exact h
        · exact absurd h.1 hn
    · simp [BMap.Sorted, BMap.keys]
    · intro i sn hi hn
      have h : ∀ e ∈ again.snapshots, e.2 = Demo.snapA ∨ e.1 = ids89.snapId Demo.snapB := by decide +kernel
      rcases h _ hi with h1 | h1
      · have h1 : sn = Demo.snapA := h1
        rw [h1] at hn
        exact absurd readA hn
      · exact h1

/-! A backup of the file, which has been touched. -/

def snapsB : List (Snap ObjectId) :=
  [(Demo.snapA, ids89.snapId Demo.snapA), (Demo.snapB, ids89.snapId Demo.snapB)]

def args89 : BackupArgs := { Demo.args0 with
  paths := [[[104]]], fs := .leaf [98] (Demo.fileMd 1 6) (.file [4]) .nil }

def plan89 : Plan ObjectId := Demo.planOf
  (backupPlan Demo.codec Demo.cut (Demo.clean again) (Check.opened again) snapsB args89)

theorem plan89_eq : backupPlan Demo.codec Demo.cut (Demo.clean again) (Check.opened again) snapsB args89 = .ok plan89 :=
  Demo.planOf_eq (by decide +kernel)

theorem orderly_leftover {R : Repo ObjectId} (h : Orderly Demo.codec ids89 R) :
    Leftover Demo.codec ids89 ⟨R, ⟨none, [], []⟩⟩ := by
  refine ⟨by simp, by simp, by simp, by simp, ?_⟩
  refine (Mend.orderly_sound h).ledger.mono ?_
  rintro p bs (h | ⟨x, h, _⟩)
  · exact h
  · cases h

theorem orderly_names {R : Repo ObjectId} (h : Orderly Demo.codec ids89 R) :
    ∀ p bs, (p, bs) ∈ (Demo.clean R).repo.packs → p = ids89.packId (Pack.manifestOf bs) := h.pack_names

theorem clean_sound {R : Repo ObjectId} (h : Orderly Demo.codec ids89 R) : Sound Demo.codec (Demo.clean R).repo :=
  Mend.orderly_sound h

theorem clean_has {R : Repo ObjectId} {b : Blob ObjectId} (h : Demo.codec.hash b.data = b.id ∧ b ∈ Check.blobs R) :
    Has Demo.codec (Demo.clean R).repo b := Check.has_iff.mpr h

theorem onDisk_clean {R : Repo ObjectId} {b : Blob ObjectId} (h : OnDisk (Demo.clean R) b) : ∃ e ∈ R.packs, b ∈ e.2 := by
  obtain ⟨p, bs, h | h, hb⟩ := h
  · exact ⟨_, h, hb⟩
  · cases h

theorem sound_opens {R : Repo ObjectId} (h : Sound Demo.codec R) : Opens (Demo.clean R).repo (Check.opened R) := by
  obtain ⟨x, bm, h1, h2, h3⟩ := opens_with h
  unfold Check.opened
  simp only [h1, h2]
  exact h3

theorem touched89 : (match parentForest Demo.codec (Check.opened again) (parentSnapshot args89.paths snapsB) with
    | .ok F => decide (∀ e ∈ F, ∀ n ∈ e.2, n.2.md.mtime ≠ (Demo.fileMd 1 6).mtime)
    | .error _ => false) = true := by decide +kernel

theorem over89 : Mend.Over Demo.codec Demo.cut ids89 (Demo.clean again) (Check.opened again) snapsB args89 where
  chunker := Demo.cut_contract
  orderly := orderly89
  leftover := orderly_leftover orderly89
  opens := sound_opens (Mend.orderly_sound orderly89)
  fits := ⟨by decide, Demo.okFileMd _ _ (by decide) (by decide), by simp [LeafFits], trivial⟩
  few := by decide
  sorted := by simp [args89, SubsSorted]
  reuse F hF := by
    have h := touched89
    rw [hF] at h
    simp only [decide_eq_true_eq] at h
    refine reuse_touched ⟨?_, trivial⟩
    rintro x cs m _ hn ⟨_, _, _, hu⟩
    unfold prevNode at hn
    obtain ⟨t, ht, hn⟩ := Option.bind_eq_some_iff.mp hn
    obtain ⟨i, _, ht⟩ := Option.bind_eq_some_iff.mp ht
    exact absurd hu.symm (h _ (BMap.mem_of_get? ht) _ (BMap.mem_of_get? hn))

theorem blobs89 : ∀ b ∈ emptyBlob Demo.codec :: (again.packs.flatMap Prod.snd ++
      offered Demo.codec Demo.cut (Check.opened again) snapsB args89),
    ∀ b' ∈ emptyBlob Demo.codec :: (again.packs.flatMap Prod.snd ++
      offered Demo.codec Demo.cut (Check.opened again) snapsB args89),
    Demo.codec.hash b.data = Demo.codec.hash b'.data → b.data = b'.data ∧ b.kind = b'.kind := by decide +kernel

theorem few89 : plan89.start.supersedes = [] ∧ plan89.start.packs = [] ∧ (sends plan89.main).length = 2 := by
  decide +kernel

theorem names89 : ∀ n ∈ [0, 1, 2], Demo.hash [1, UInt8.ofNat n, UInt8.ofNat 0] ∉ BMap.keys again.indexes ∧
    ∀ e ∈ again.indexes, Demo.hash [1, UInt8.ofNat n, UInt8.ofNat 0] ∉ e.2.supersedes := by decide +kernel

theorem length_flat {α β : Type} : ∀ l : List (α × List β), (∀ e ∈ l, e.2 ≠ []) → l.length ≤ (l.flatMap Prod.snd).length
  | [], _ => Nat.le_refl 0
  | e :: l, h => by
    have h1 := length_flat l fun e he => h e (List.mem_cons_of_mem _ he)
    have h2 := List.length_pos_of_ne_nil (h e List.mem_cons_self)
    simp only [List.length_cons, List.flatMap_cons, List.length_append]
    omega

theorem start_of (ids : Ids ObjectId) (s : Index ObjectId) : (liveCfg ids 4 s).start = s := rfl

theorem indexes89 : IndexOk (liveCfg ids89 4 plan89.start) again (sends plan89.main) := by
  intro x hx
  obtain ⟨news, rest, h1, _, h3, h4⟩ := hx.packs
  have h5 := length_flat news fun e he => (h3 e he).1
  have h6 := h1.length_eq
  have h7 := h4.length_eq
  have h8 : (liveCfg ids89 4 plan89.start).start.packs = [] := by rw [start_of]; exact few89.2.1
  have h9 : x.supersedes = [] := hx.sup.trans (by rw [start_of]; exact few89.1)
  rw [few89.2.2, List.length_append] at h6
  rw [h8, List.nil_append, List.length_map] at h7
  have hid : (liveCfg ids89 4 plan89.start).ids.indexId x = Demo.hash [1, UInt8.ofNat x.packs.length, UInt8.ofNat 0] := by
    show Demo.hash [1, UInt8.ofNat x.packs.length, UInt8.ofNat x.supersedes.length] = _
    rw [h9]
    rfl
  have hn := names89 x.packs.length (by
    have : x.packs.length ≤ 2 := by omega
    generalize x.packs.length = n at this
    simp only [List.mem_cons, List.not_mem_nil, or_false]
    omega)
  rw [hid]
  refine ⟨?_, fun y hy => absurd (BMap.mem_keys_of_mem hy) hn.1, ?_⟩
  · rintro ⟨j, y, h, h'⟩
    exact hn.2 _ h h'
  · have : (liveCfg ids89 4 plan89.start).start.supersedes = [] := by rw [start_of]; exact few89.1
    rw [this]
    simp

theorem noClash89 : NoClash Demo.codec Demo.cut ids89 4 (Demo.clean again) (Check.opened again) snapsB args89 plan89 where
  blobs := by
    have hm : ∀ b, (Stored (Demo.clean again) b ∨ b ∈ offered Demo.codec Demo.cut (Check.opened again) snapsB args89) →
        b ∈ emptyBlob Demo.codec :: (again.packs.flatMap Prod.snd ++
          offered Demo.codec Demo.cut (Check.opened again) snapsB args89) := by
      rintro b (⟨p, bs, (⟨_, h2⟩ | ⟨x, hx, _⟩), h3⟩ | h1)
      · exact List.mem_cons_of_mem _ (List.mem_append_left _ (List.mem_flatMap.mpr ⟨_, h2, h3⟩))
      · cases hx
      · exact List.mem_cons_of_mem _ (List.mem_append_right _ h1)
    exact ⟨fun b b' g g' he => (blobs89 b (hm b g) b' (g'.elim (hm b') (fun e => e ▸ List.mem_cons_self)) he).1,
      fun b b' g g' he => (blobs89 b (hm b g) b' (hm b' g') (by rw [he])).2⟩
  packs := Check.packsDiffer_sound (by decide +kernel)
  indexes := indexes89

/-- The snapshot it makes. -/
def snap89 : Snapshot ObjectId :=
  match plan89.post with
  | .ok [.putSnap s] => s
  | _ => ⟨0, [], [], [], [], Demo.codec.emptyId⟩

theorem post89 : plan89.post = .ok [.putSnap snap89] := by decide +kernel

theorem can89 : plan89.main = mainOf [] (sends plan89.main) ∧
    (ofKind .chunk (sends plan89.main) ≠ [] →
      ids89.packId (Pack.manifestOf (ofKind .chunk (sends plan89.main))) ∉ BMap.keys plan89.start.packs) ∧
    (ofKind .tree (sends plan89.main) ≠ [] → ids89.packId (Pack.manifestOf (ofKind .tree (sends plan89.main))) ∉
      BMap.keys (withPack ids89 (ofKind .chunk (sends plan89.main)) (again, plan89.start)).2.packs) ∧
    (withPack ids89 (ofKind .tree (sends plan89.main))
      (withPack ids89 (ofKind .chunk (sends plan89.main)) (again, plan89.start))).2.isEmpty = false := by decide +kernel

theorem covers89 : ∀ b ∈ Check.blobs repo89, b ∈ Check.blobs again ∨
    b ∈ offered Demo.codec Demo.cut (Check.opened again) snapsB args89 := by decide +kernel

theorem holdsB : Holds Demo.codec repo89 Demo.snapB.tree (.leaf [98] (Demo.fileMd 1 5) (.file [4]) .nil) :=
  Check.dirAt_sound 3 (by decide +kernel)

theorem sorted89 : BMap.Sorted again.snapshots := by
  unfold BMap.Sorted
  decide +kernel

/-- The backup can finish. When it has, the lost snapshot can be read again, as can the new one. -/
example : (∃ w', Finished (liveCfg ids89 4 plan89.start) (Demo.clean again) plan89.main plan89.posts w') ∧
    ∀ w', Finished (C13.cfg ids89 4 args89 plan89) (Demo.clean again) plan89.main plan89.posts w' →
      Holds Demo.codec w'.repo Demo.snapB.tree (.leaf [98] (Demo.fileMd 1 5) (.file [4]) .nil) ∧
      Holds Demo.codec w'.repo snap89.tree (.leaf [98] (Demo.fileMd 1 6) (.file [4]) .nil) := by
  constructor
  · obtain ⟨h1, h2, h3, h4⟩ := can89
    obtain ⟨s, hs, hj, _⟩ := simple_run ids89 plan89.start again (sends plan89.main) h2 h3 h4
    rw [← h1] at hs
    exact ⟨_, .mk s hs hj⟩
  · intro w' h
    refine ⟨regains over89 noClash89 plan89_eq sorted89 snap89 post89 h holdsB fun b hb => ?_,
      (backup_adds_partial over89 noClash89 plan89_eq sorted89 snap89 post89 h).2.2.1⟩
    obtain ⟨h0, h1⟩ := Check.has_iff.mp hb.1
    exact (covers89 b h1).imp (fun h => Check.has_iff.mpr ⟨h0, h⟩) id

/-! A backup of the file as it was, by someone else. -/

def argsB : BackupArgs := { Demo.args0 with
  paths := [[[104]]], fs := .leaf [98] (Demo.fileMd 1 5) (.file [4]) .nil, author := [2] }

def planB : Plan ObjectId := Demo.planOf
  (backupPlan Demo.codec Demo.cut (Demo.clean again) (Check.opened again) snapsB argsB)

theorem planB_eq : backupPlan Demo.codec Demo.cut (Demo.clean again) (Check.opened again) snapsB argsB = .ok planB :=
  Demo.planOf_eq (by decide +kernel)

/-- The snapshot it makes. -/
def snapN : Snapshot ObjectId :=
  match planB.post with
  | .ok [.putSnap s] => s
  | _ => ⟨0, [], [], [], [], Demo.codec.emptyId⟩

theorem postB : planB.post = .ok [.putSnap snapN] := by decide +kernel

theorem gone89 : ∀ e ∈ again.packs, (∀ b ∈ e.2, b ∈ Check.blobs repo89 ∧ Demo.codec.hash b.data = b.id) ∧
    Demo.chunkB ∉ e.2 := by decide +kernel

theorem trees89 : ∀ b ∈ Check.blobs repo89, b.kind = .tree → b ∈ Check.blobs again := by decide +kernel

theorem usesB : Uses Demo.codec repo89 Demo.snapB.tree Demo.chunkB :=
  ⟨Check.has_iff.mpr ⟨by decide +kernel, by decide +kernel⟩, _, Demo.oneFile [98] Demo.chunkB, .refl,
    Check.treeAt_sound (by decide +kernel), .inr ⟨by decide +kernel, [98], [Demo.chunkB.id], Demo.fileMd 1 5,
      by decide +kernel, by simp⟩⟩

/-- Its snapshot has the tree of the one that is lost, and cannot be read either. -/
example : ∀ w', Instant (C13.cfg ids89 4 argsB planB) (Demo.clean again) planB.main planB.posts w' →
    snapN.tree = Demo.snapB.tree ∧ snapN.author = [2] ∧ ¬ Readable Demo.codec w'.repo snapN := by
  intro w' h
  obtain ⟨h1, h2⟩ := unmodified_stays_lost (w := Demo.clean again) healthy89.sound
    (clean_sound orderly89) (orderly_names orderly89)
    (orderly_leftover orderly89) (sound_opens (Mend.orderly_sound orderly89)) planB_eq Demo.snapB (by decide +kernel)
    holdsB (fun b hb hk => by
      obtain ⟨h0, h1⟩ := Check.has_iff.mp hb.1
      exact clean_has ⟨h0, trees89 b h1 hk⟩)
    (fun b hb => by
      obtain ⟨e, h1, h2⟩ := onDisk_clean hb
      exact Check.has_iff.mpr ((gone89 e h1).1 b h2).symm)
    usesB (fun hb => by
      obtain ⟨e, h1, h2⟩ := onDisk_clean hb
      exact (gone89 e h1).2 h2) h
  have h3 := h1 _ postB
  refine ⟨h3, by decide +kernel, ?_⟩
  unfold Readable
  rw [h3]
  exact h2

/-! The same without the tree of the later snapshot. -/

def lessT : Repo ObjectId :=
  ⟨repo89.packs.filter fun e => decide (e.2 ≠ [Demo.treeB]), repo89.indexes, repo89.snapshots⟩

def againT : Repo ObjectId := ⟨lessT.packs, [(ids89.indexId (C28.whole lessT), C28.whole lessT)], lessT.snapshots⟩

theorem orderlyT : Orderly Demo.codec ids89 againT := Check.healthy_sound (k := 2) (by decide +kernel)

theorem restT : (∀ b ∈ Check.blobs againT, b ∈ Check.blobs repo89) ∧ Demo.treeB ∉ Check.blobs againT ∧
    Demo.treeB ∈ Check.blobs repo89 ∧ Demo.treeB.kind = .tree ∧
    Demo.codec.hash Demo.treeB.data = Demo.treeB.id := by decide +kernel

theorem usesT : Uses Demo.codec repo89 Demo.snapB.tree Demo.treeB :=
  ⟨Check.has_iff.mpr ⟨restT.2.2.2.2, restT.2.2.1⟩, _, Demo.oneFile [98] Demo.chunkB, .refl,
    Check.treeAt_sound (by decide +kernel), .inl ⟨by decide +kernel, by decide +kernel⟩⟩

theorem clean_had {R : Repo ObjectId} {b : Blob ObjectId} (h : Has Demo.codec (Demo.clean R).repo b) :
    Demo.codec.hash b.data = b.id ∧ b ∈ Check.blobs R := Check.has_iff.mp h

/-- No backup of the same path succeeds, whatever has become of the file. -/
example (fs : Dir Bytes) : ∃ e, backupPlan Demo.codec Demo.cut (Demo.clean againT) (Check.opened againT) snapsB
    { args89 with fs := fs } = .error e :=
  lost_tree_refuses (w := Demo.clean againT) healthy89.sound (clean_sound orderlyT) (sound_opens (Mend.orderly_sound orderlyT))
    (fun b hb => Check.has_iff.mpr ⟨(clean_had hb).1, restT.1 b (clean_had hb).2⟩) Demo.snapB
    (show parentSnapshot args89.paths snapsB = some Demo.snapB by decide +kernel) usesT restT.2.2.2.1
    (fun h => restT.2.1 (clean_had h).2)

/-! The same backup of the touched file, with the index as it was. -/

def planS : Plan ObjectId := Demo.planOf
  (backupPlan Demo.codec Demo.cut (Demo.clean less) (Check.opened less) snapsB args89)

theorem planS_eq : backupPlan Demo.codec Demo.cut (Demo.clean less) (Check.opened less) snapsB args89 = .ok planS :=
  Demo.planOf_eq (by decide +kernel)

theorem indexesS : less.indexes = repo89.indexes := by decide +kernel

theorem packsS : ∀ e ∈ less.packs, e.1 = ids89.packId (Pack.manifestOf e.2) ∧ Demo.chunkB ∉ e.2 := by decide +kernel

theorem clean_repo (R : Repo ObjectId) : (Demo.clean R).repo = R := rfl

/-- The chunk is listed, and not sent; the snapshot succeeds, of a tree that needs the chunk. -/
example : ∀ w', Instant (C13.cfg ids89 4 args89 planS) (Demo.clean less) planS.main planS.posts w' →
    Demo.chunkB ∉ sends planS.main ∧ (sends planS.main).length = 1 ∧ ¬ Has Demo.codec w'.repo Demo.chunkB := by
  intro w' h
  obtain ⟨h1, h2⟩ := still_listed_stays_lost (w := Demo.clean less) healthy89.sound (by rw [clean_repo]; exact indexesS)
    (by
      rintro p bs (h | h)
      · rw [clean_repo] at h
        exact (packsS _ h).1
      · cases h)
    (by rw [clean_repo]; exact less_sorted.1)
    (by rw [clean_repo]; exact still_opens healthy89.sound indexesS less_sorted.1) planS_eq h usesB.1
    (fun hb => by
      obtain ⟨e, h1, h2⟩ := onDisk_clean hb
      exact (packsS e h1).2 h2)
  exact ⟨h1, by decide +kernel, h2⟩

end Backpak.C89
