import Verif.Lemmas.Beside

/-!
# C66 - A prune beside backups

Nothing locks a repository, so a prune may run while backups do. True of what was there when the prune
began, and of backups that began once its index was stored; false of a backup that began before.
-/

namespace Backpak.C66

open Spec Pipeline Beside
open C65 (Apart Known)

variable {ι Id : Type} [DecidableEq ι] [LinearOrder Id]

/-- Process `j` makes the backup with arguments `a`. The caveats are those of `C13`, but that only the parent
snapshot has to be readable, and that what it resumes from, if it does, has not been stored since and was not
left by a rebuild-index or prune. -/
structure IsBackup (C : Codec Id) (cut : Bytes → Nat) (ids : Ids Id) (cores : Nat) (j : Job Id) (a : BackupArgs)
    (plan : Plan Id) : Prop where
  ok : Orderly C ids j.w.repo → ∃ src snaps, (∀ i s, (i, s) ∈ j.w.repo.snapshots ↔ (s, i) ∈ snaps) ∧
    BackupRuns C cut ids j.w src snaps a ∧ NoClash C cut ids cores j.w src snaps a plan ∧ backupPlan C cut j.w src snaps a = .ok plan
  live : a.dryRun = false
  plain : plan.start.supersedes = []
  job : j.c = liveCfg ids cores plan.start ∧ j.main = plan.main ∧ j.posts = plan.posts
  fresh : ∀ x, j.w.cwd.wip = some x → ∀ q mf, (q, mf) ∈ x.packs → ¬ Listed j.w.repo.indexes q mf

/-- Process `j` prunes. The caveats are those of `C25`: when it began, every snapshot could be read. -/
structure IsPrune (C : Codec Id) (env : CacheEnv Id) (ids : Ids Id) (cores : Nat) (j : Job Id)
    (plan : Plan Id) : Prop where
  ok : ∃ src snaps, PruneOk C env ids j.w src snaps ∧ PruneNoClash ids cores j.w plan ∧
    prunePlan C env j.w src snaps false = .ok (some plan)
  job : j.c = liveCfg ids cores plan.start ∧ j.main = plan.main ∧ j.posts = plan.posts

/-- The processes that may start: backups, and prunes, whose objects are in these sets. A backup must not
store anew an index that was superseded before any of them began (see `C27`). -/
structure May (C : Codec Id) (cut : Bytes → Nat) (env : CacheEnv Id) (ids : Ids Id) (cores : Nat)
    (U : Pack Id → Prop) (X : Index Id → Prop) (S : Snapshot Id → Prop) (R0 : Repo Id) (j : Job Id) : Prop where
  kind : (∃ a plan, IsBackup C cut ids cores j a plan ∧
      ∀ x, Writes j.c (sends j.main) x → ¬ Superseded R0.indexes (ids.indexId x)) ∨
    ∃ plan, IsPrune C env ids cores j plan
  packs : ∀ bs, (∃ p, (p, bs) ∈ j.w.cwd.packs) ∨ FormedBy j.main bs → U bs
  indexes : ∀ x, Writes j.c (sends j.main) x → X x
  snaps : ∀ s, Post.putSnap s ∈ j.posts → S s

/-- Blob `b` is one that a backup needs and may not store itself, if it is there: one that it makes, or one of
the parent snapshot. -/
def Relies (C : Codec Id) (cut : Bytes → Nat) (ids : Ids Id) (w : World Id) (a : BackupArgs) (plan : Plan Id)
    (b : Blob Id) : Prop :=
  ∃ src snaps, (∀ i s, (i, s) ∈ w.repo.snapshots ↔ (s, i) ∈ snaps) ∧
    BackupRuns C cut ids w src snaps a ∧ backupPlan C cut w src snaps a = .ok plan ∧
    (b ∈ offered C cut src snaps a ∨ ∃ p, parentSnapshot a.paths snaps = some p ∧ Used C w.repo p.tree b)

section

variable {C : Codec Id} {cut : Bytes → Nat} {env : CacheEnv Id} {ids : Ids Id} {cores : Nat}
  {U : Pack Id → Prop} {X : Index Id → Prop} {S : Snapshot Id → Prop} {R0 : Repo Id} {j : Job Id}
  {a : BackupArgs} {plan : Plan Id}

theorem writes_own (hl : j.c = liveCfg ids cores j.c.start) {x : Index Id}
    (h : Writes (own ids cores j) (sends j.main) x) : Writes j.c (sends j.main) x := by
  obtain ⟨x1, x2, news, rest, x3, x4, x5, x6⟩ := h
  refine ⟨x1, x2, news, rest, x3, fun e he => ?_, x5, x6⟩
  rw [hl]
  exact ⟨(x4 e he).1, trivial⟩

theorem involved (hK : Known ids U X S j.w.repo)
    (hp : ∀ bs, (∃ p, (p, bs) ∈ j.w.cwd.packs) ∨ FormedBy j.main bs → U bs) {bs : Pack Id}
    (h : Involved j.w j.main bs) : U bs := by
  rcases h with ⟨p, h⟩ | h | h
  · exact (hK.packs _ _ h).2
  · exact hp _ (.inl h)
  · exact hp _ (.inr h)

/-- What a backup has to work with. -/
structure Backs (C : Codec Id) (cut : Bytes → Nat) (ids : Ids Id) (cores : Nat) (j : Job Id) (a : BackupArgs)
    (plan : Plan Id) : Prop where
  live : j.c = liveCfg ids cores j.c.start
  run : RunOk (own ids cores j) j.w j.main
  sup : j.c.start.supersedes = []
  ledger : Ledger C (Before (own ids cores j) j.w.repo)
  fresh : Fresh C (Before (own ids cores j) j.w.repo) (sends j.main)
  idx : IndexOk (own ids cores j) j.w.repo (sends j.main)
  new : ∀ x ∈ gives j, Unlisted j.w.repo x
  posts : j.posts = [] ∨ ∃ sn, j.posts = [.putSnap sn]
  sound : Sound C j.w.repo
  holds : ∀ R', (∀ b, Has C j.w.repo b → Relies C cut ids j.w a plan b → Has C R' b) →
    (∀ b, (b ∈ sends j.main ∨ ∃ p bs, StartPack (own ids cores j) p bs ∧ b ∈ bs) → Has C R' b) →
    ∀ sn, plan.post = .ok [.putSnap sn] → Holds C R' sn.tree (arrange (keep a.filter a.pathOf a.fs))

theorem IsBackup.backs (h : IsBackup C cut ids cores j a plan) (ho : Orderly C ids j.w.repo) :
    Backs C cut ids cores j a plan := by
  obtain ⟨src, snaps, hload, hB, hN, hp⟩ := h.ok ho
  obtain ⟨hc, hm, hpo⟩ := h.job
  obtain ⟨F, known, here, root, L, hF, hk, hr, hb, hoff, hm', hpost⟩ := plan_ok hp
  have hu := hN.blobs
  rw [hoff] at hu
  obtain ⟨hfresh, hall⟩ := offer_fresh hB.leftover (packed_iff hB.sound hB.leftover hB.opens hk hr)
    (offered_made hB hF hb) hu
  generalize hss : (L.foldl offer ⟨BMap.keys known ++ listedIds plan.start, []⟩).sent = ss at *
  have hmain : j.main = mainOf here ss := by rw [hm, hm', h.live]; rfl
  have hstart : j.c.start = plan.start := by rw [hc]; rfl
  have hown : own ids cores j = ⟨ids, true, cores, plan.start, Involved j.w (mainOf here ss)⟩ := by
    unfold own; rw [hstart, hmain]
  have hpk : PacksDiffer ids j.w (mainOf here ss) := by rw [← hmain, hm]; exact hN.packs
  have hsends : sends j.main = ss := by rw [hmain, sends_mainOf]
  have hrun := runOk_add (cores := cores) hB.sound hB.names hB.leftover hr hfresh hpk
  have hbefore : ∀ p bs, Before (own ids cores j) j.w.repo p bs → Counts j.w p bs := by
    intro p bs hb
    rw [hown] at hb
    exact before_counts hB.names hB.leftover hr hpk hb
  have hled : Ledger C (Counts j.w) := hB.leftover.ledger
  have hfr : Fresh C (Before (own ids cores j) j.w.repo) (sends j.main) := by
    rw [hsends]
    exact ⟨hfresh.nodup, fun b hb p cs hp => hfresh.new b hb p cs (hbefore p cs hp), hfresh.ne, hfresh.hashes,
      hfresh.trees⟩
  have hlive : j.c = liveCfg ids cores j.c.start := by rw [hstart]; exact hc
  refine ⟨hlive, by rw [hown, hmain]; exact hrun, by rw [hstart]; exact h.plain, hled.mono hbefore,
    hfr, ?_, ?_, ?_, hB.sound, ?_⟩
  · intro x hx
    have := hN.indexes x (by rw [← hc, ← hm]; exact writes_own hlive hx)
    rw [hown]
    exact this
  · intro x hx q mf e hl he heq
    obtain ⟨bs, h1, rfl⟩ := hB.sound.present _ _ hl
    obtain ⟨b, hb', rfl⟩ := List.mem_map.mp he
    unfold gives adds at hx
    rcases List.mem_append.mp hx with hx | hx
    · unfold listedIds at hx
      obtain ⟨⟨q', mf'⟩, g1, g2⟩ := List.mem_flatMap.mp hx
      rw [hstart] at g1
      rcases resumeFrom_ok hr with ⟨_, g3, _⟩ | ⟨g3, _, _⟩
      · rw [g3] at g1; cases g1
      · obtain ⟨cs, g4, rfl⟩ := hB.leftover.there _ _ _ g3 g1
        rw [entry_ids] at g2
        obtain ⟨b', g5, g6⟩ := List.mem_map.mp g2
        have hw : WipPack j.w q' cs := ⟨_, g3, g1, g4⟩
        have hlp : LivePack j.w.repo q bs := ⟨hl, h1⟩
        have e1 := hled.once q bs q' cs b b' (.inl hlp) (.inr hw) hb' g5 (heq.trans g6.symm)
        subst e1
        have e2 := hled.one q bs cs (.inl hlp) (.inr hw)
        subst e2
        exact h.fresh _ g3 _ _ g1 hl
    · rw [hsends] at hx
      obtain ⟨b', g1, rfl⟩ := List.mem_map.mp hx
      exact hfresh.new b' g1 q bs (.inl ⟨hl, h1⟩) b hb' heq
  · rw [hpo]
    rcases C13.posts_cases (C := C) (snaps := snaps) (a := a) ⟨_, _, _, hpost⟩ with h1 | ⟨sn, _, _, h1⟩
    · exact .inl h1
    · exact .inr ⟨sn, h1⟩
  · intro R' hold hnew sn hsn
    have hR := root_used hB hF hb (fun b h1 h2 => hold b h1 ⟨src, snaps, hload, hB, hp, .inr h2⟩) (fun b hbL => by
      rcases hall b hbL with ⟨p, bs, h1, h2⟩ | h1
      · rcases h1 with h1 | ⟨x, h1, h3, h4⟩
        · exact hold b ((hB.sound.has_iff b).mpr ⟨p, bs, h1.1, h1.2, h2⟩)
            ⟨src, snaps, hload, hB, hp, .inl (hoff ▸ hbL)⟩
        · refine hnew b (.inr ⟨p, bs, ⟨?_, ?_⟩, h2⟩)
          · rcases resumeFrom_ok hr with ⟨g3, _, _⟩ | ⟨g3, _, _⟩
            · rw [g3] at h1; cases h1
            · rw [g3] at h1; cases h1
              show _ ∈ j.c.start.packs
              rw [hstart]; exact h3
          · rcases h4 with h4 | h4
            · exact ⟨hB.leftover.names _ _ h4, .inr (.inl ⟨p, h4⟩)⟩
            · exact ⟨hB.names _ _ h4, .inl ⟨p, h4⟩⟩
      · exact hnew b (.inl (by rw [hsends]; exact h1)))
    rw [hpost] at hsn
    rcases post_cases hsn with h1 | ⟨_, h1⟩
    · cases h1
    · cases h1
      exact hR

theorem Backs.adds (hb : Backs C cut ids cores j a plan)
    (hp : ∀ bs, (∃ p, (p, bs) ∈ j.w.cwd.packs) ∨ FormedBy j.main bs → U bs)
    (hi : ∀ x, Writes j.c (sends j.main) x → X x) (hsn : ∀ s, Post.putSnap s ∈ j.posts → S s)
    (hs : ∀ x, Writes j.c (sends j.main) x → ¬ Superseded R0.indexes (ids.indexId x))
    (hK : Known ids U X S j.w.repo) : Adds C ids cores U X S R0 j where
  live := hb.live
  run := hb.run
  ledger := hb.ledger.mono (fun _ _ h => .inr h)
  fresh := ⟨hb.fresh.nodup, fun b h1 p cs h2 => hb.fresh.new b h1 p cs (.inr h2), hb.fresh.ne, hb.fresh.hashes,
    hb.fresh.trees⟩
  packs _ h := involved hK hp h
  indexes x h := hi x (writes_own hb.live h)
  sup := hb.sup
  new := hb.new
  idx := hb.idx
  safe x h := hs x (writes_own hb.live h)
  posts o ho := by
    rcases hb.posts with h | ⟨sn, h⟩
    · rw [h] at ho; cases ho
    · have h1 := ho
      rw [h, List.mem_singleton] at h1
      exact ⟨sn, h1, hsn sn (h1 ▸ ho)⟩

theorem IsPrune.prunes (h : IsPrune C env ids cores j plan) (hm : May C cut env ids cores U X S R0 j)
    (hK : Known ids U X S j.w.repo) : Prunes C ids cores U X j := by
  obtain ⟨src, snaps, hP, hN, hp⟩ := h.ok
  obtain ⟨hc, hmn, hpo⟩ := h.job
  obtain ⟨c, reach, h1⟩ := pruning hP hN hp
  have hstart : j.c.start = plan.start := by rw [hc]; rfl
  have hlive : j.c = liveCfg ids cores j.c.start := by rw [hstart]; exact hc
  have hown : own ids cores j = c := by
    rw [h1.cfg]; unfold own; rw [hstart, hmn]
  have hsome := some_index hP.healthy hP.opens h1.work
  refine ⟨⟨hlive, ?_, ?_, ?_, fun _ h => involved hK hm.packs h, fun x h => hm.indexes x (writes_own hlive h)⟩,
    ?_, hsome, ?_, ?_, ?_, ?_, ?_⟩
  · rw [hown, hmn]; exact h1.run
  · rw [hown]; exact h1.ledger
  · rw [hown, hmn]; exact h1.fresh
  · rw [hstart]; exact h1.sup
  · rw [hown, hmn]; exact h1.new
  · intro o ho
    rw [hpo, h1.posts, prunePosts, List.mem_append, List.mem_map, List.mem_map] at ho
    rcases ho with ⟨i, h2, rfl⟩ | ⟨q, _, rfl⟩
    · exact .inl ⟨i, h2, rfl⟩
    · exact .inr ⟨q, rfl⟩
  · intro R' x news hn q hq
    rw [hown, hmn] at hn
    refine h1.disjoint hP hn q ?_
    rw [hpo, h1.posts, prunePosts, List.mem_append, List.mem_map, List.mem_map] at hq
    rcases hq with ⟨i, _, h2⟩ | ⟨q', h2, h3⟩
    · cases h2
    · cases h3; exact h2
  · intro s hs hj
    rw [hown, hmn] at hs
    rcases effect_joined h1.run hs hj with ⟨h2, _, _⟩ | ⟨x, news, hn⟩
    · simp only [Index.isEmpty, Bool.and_eq_true, List.isEmpty_iff] at h2
      have : c.start.supersedes = BMap.keys j.w.repo.indexes := by rw [h1.cfg]; exact h1.sup
      exact absurd (this.symm.trans h2.1) hsome
    · refine ⟨(c.ids.indexId x, x), ?_, (h1.new x hn.writes).1⟩
      rw [hn.put]
      exact (BMap.mem_insert_iff h1.run.world.isort).mpr (.inl ⟨rfl, rfl⟩)
  · rw [hown, hmn]; exact h1.holds

theorem may_cases (j : Job Id) (hm : May C cut env ids cores U X S R0 j) (ho : Orderly C ids j.w.repo)
    (hK : Known ids U X S j.w.repo) : (¬ isPrune j → Adds C ids cores U X S R0 j) ∧ (isPrune j → Prunes C ids cores U X j) := by
  rcases hm.kind with ⟨a, plan, hb, hs⟩ | ⟨plan, hp⟩
  · have := hb.backs ho
    exact ⟨fun _ => this.adds hm.packs hm.indexes hm.snaps hs hK, fun h => absurd this.sup h⟩
  · have := hp.prunes hm hK
    exact ⟨fun h => absurd (fun h1 => this.some (this.sup.symm.trans h1)) h, fun _ => this⟩

/-- What each process found when it began. -/
theorem started (hU : Apart ids U X S) (hH : Healthy C ids R0) (hK : Known ids U X S R0)
    {m : Shared ι Id} (h : Shared.Reachable (May C cut env ids cores U X S R0) R0 m) (ht : Together ids U m) :
    ∀ k p, m.proc k = some p → May C cut env ids cores U X S R0 p.job ∧ Orderly C ids p.job.w.repo ∧
      Known ids U X S p.job.w.repo ∧ BMap.Sorted p.job.w.repo.snapshots ∧
      ∀ e ∈ R0.snapshots, e ∈ p.job.w.repo.snapshots := by
  have hO : Orderly C ids R0 := ⟨hH.packs_sorted, hH.indexes_sorted, BMap.sorted_nil, hH.pack_names, hH.index_names,
    hH.index_packs, hH.present, hH.distinct, hH.once, hH.one_kind, hH.hashes, hH.trees, hH.full,
    fun i s hi => (by cases hi)⟩
  induction h with
  | refl => intro k p hk; cases hk
  | @tail m1 m2 hr hs ih =>
    have ht1 := ht.back hs
    obtain ⟨alone, hi⟩ := inv hU hO hK hH.snapshots_sorted may_cases hr ht1
    intro k p hk
    cases hs with
    | start i j h1 h2 h3 =>
      rcases C65.upd_some hk with ⟨rfl, rfl⟩ | ⟨hne, hk⟩
      · dsimp only
        rw [h2]
        exact ⟨h3, hi.core.orderly, hi.core.known, hi.core.ssort, hi.core.snaps0⟩
      · exact ih ht1 k p hk
    | run i q t h1 h2 h3 =>
      rcases C65.upd_some hk with ⟨rfl, rfl⟩ | ⟨hne, hk⟩
      · exact ih ht1 k q h1
      · exact ih ht1 k p hk
    | post i q o rest h1 h2 h3 =>
      rcases C65.upd_some hk with ⟨rfl, rfl⟩ | ⟨hne, hk⟩
      · exact ih ht1 k q h1
      · exact ih ht1 k p hk

theorem together_inv (hU : Apart ids U X S) (hH : Healthy C ids R0) (hK : Known ids U X S R0)
    {m : Shared ι Id} (h : Shared.Reachable (May C cut env ids cores U X S R0) R0 m) (ht : Together ids U m) :
    ∃ alone, Inv C ids cores U X S R0 m alone :=
  inv hU ⟨hH.packs_sorted, hH.indexes_sorted, BMap.sorted_nil, hH.pack_names, hH.index_names,
    hH.index_packs, hH.present, hH.distinct, hH.once, hH.one_kind, hH.hashes, hH.trees, hH.full,
    fun i s hi => (by cases hi)⟩ hK hH.snapshots_sorted may_cases h ht

/-- Any number of backups and at most one prune take their steps in any order, or stop for good. As long as no
two add the same new blob, and no backup makes anew a pack the prune is to remove, the repository is at every
instant in good order: every live index lists packs that are there, each blob in one of them. And every snapshot
there was at first is there and holds what it held. -/
theorem always_orderly_partial (hU : Apart ids U X S) (hH : Healthy C ids R0) (hK : Known ids U X S R0)
    {m : Shared ι Id} (h : Shared.Reachable (May C cut env ids cores U X S R0) R0 m) (ht : Together ids U m) :
    Orderly C ids m.repo ∧ ∀ i sn d, (i, sn) ∈ R0.snapshots → Holds C R0 sn.tree d →
      (i, sn) ∈ m.repo.snapshots ∧ Holds C m.repo sn.tree d := by
  obtain ⟨alone, hi⟩ := together_inv hU hH hK h ht
  refine ⟨hi.core.orderly, fun i sn d h1 h2 => hi.first hU hK h1 (fun k p hk => ?_) h2⟩
  exact (started hU hH hK h ht k p hk).2.2.2.2 _ h1

/-- So is every snapshot there was when the prune began, those of backups that finished before included. -/
theorem before_prune_partial (hU : Apart ids U X S) (hH : Healthy C ids R0) (hK : Known ids U X S R0)
    {m : Shared ι Id} (h : Shared.Reachable (May C cut env ids cores U X S R0) R0 m) (ht : Together ids U m)
    {k : ι} {p : Proc Id} (hk : m.proc k = some p) (hp : IsPrune C env ids cores p.job plan) :
    ∀ i sn, (i, sn) ∈ p.job.w.repo.snapshots → (i, sn) ∈ m.repo.snapshots ∧ Readable C m.repo sn ∧
      ∀ d, Holds C p.job.w.repo sn.tree d → Holds C m.repo sn.tree d := by
  obtain ⟨alone, hi⟩ := together_inv hU hH hK h ht
  obtain ⟨g1, _, g3, g4, _⟩ := started hU hH hK h ht k p hk
  have hP := hp.prunes g1 g3
  have hpr : isPrune p.job := fun h1 => hP.some (hP.sup.symm.trans h1)
  intro i sn h1
  have key := fun d => hi.before hU ht.one hk hpr h1 (d := d)
  obtain ⟨_, _, hPo, _⟩ := hp.ok
  obtain ⟨d, hd⟩ := hPo.healthy.readable i sn h1
  exact ⟨hi.stay hU hk g3 g4 _ h1, ⟨d, key d hd⟩, key⟩

/-- What a backup that has finished has stored. -/
theorem done (hU : Apart ids U X S) (hH : Healthy C ids R0) (hK : Known ids U X S R0)
    {m : Shared ι Id} (h : Shared.Reachable (May C cut env ids cores U X S R0) R0 m) (ht : Together ids U m)
    {k : ι} {p : Proc Id} (hk : m.proc k = some p) (hf : p.finished)
    (hb : IsBackup C cut ids cores p.job a plan) {sn : Snapshot Id} (hsn : plan.post = .ok [.putSnap sn])
    {alone : ι → Repo Id} (hi : Inv C ids cores U X S R0 m alone) :
    (ids.snapId sn, sn) ∈ m.repo.snapshots ∧ ∃ r, Reachable p.job.c p.job.w p.job.main (p.s.on r) ∧
      (alone k).indexes = r.indexes ∧ (∀ b, Has C p.job.w.repo b → Has C r b) ∧
      ((∀ b, Has C r b → (Has C p.job.w.repo b → Relies C cut ids p.job.w a plan b) → Has C m.repo b) →
        Holds C m.repo sn.tree (arrange (keep a.filter a.pathOf a.fs))) := by
  obtain ⟨g1, g2, g3, g4, _⟩ := started hU hH hK h ht k p hk
  have hB := hb.backs g2
  have hnp : ¬ isPrune p.job := fun h1 => h1 hB.sup
  obtain ⟨r, done, e1, e2, e3, e4⟩ := (hi.runs k p hk).run
  have hA := (hi.runs k p hk).adds hnp
  rw [hf.2, List.append_nil] at e1
  have hposts : p.job.posts = [.putSnap sn] := by
    rw [hb.job.2.2]; unfold Plan.posts; rw [hsn]
  rw [hposts] at e1
  subst e1
  have hr := hA.reach e2
  obtain ⟨_, f2, f3⟩ := grow hA.run hB.sound (c := own ids cores p.job) (covers_plain hB.sup) hB.ledger hB.fresh hB.idx hr
  rw [on_repo] at f2 f3
  refine ⟨hi.core.snaps k _ (jobs_of hk) _ ?_, r, e2, by rw [e4]; rfl, f2, fun hn => ?_⟩
  · rw [e4]
    have hsn' := (effect hA.run hr).snaps
    rw [on_repo] at hsn'
    show _ ∈ BMap.insert (ids.snapId sn) sn r.snapshots
    rw [hsn']
    exact (BMap.mem_insert_iff g4).mpr (.inl ⟨rfl, rfl⟩)
  · refine hB.holds m.repo (fun b h1 h2 => hn b (f2 b h1) (fun _ => h2)) (fun b h1 => hn b (f3 hf.1 b h1) ?_) sn hsn
    rintro ⟨_, q, bs, h2, h3, h4⟩
    exfalso
    have hid : b.id ∈ gives p.job := by
      rcases h1 with h1 | ⟨q', bs', ⟨h5, _⟩, h6⟩
      · exact List.mem_append_right _ (List.mem_map.mpr ⟨b, h1, rfl⟩)
      · refine List.mem_append_left _ (List.mem_flatMap.mpr ⟨_, h5, ?_⟩)
        rw [entry_ids]
        exact List.mem_map.mpr ⟨b, h6, rfl⟩
    exact hB.new _ hid q _ (Pack.entryOf b) h2 (List.mem_map.mpr ⟨b, h4, rfl⟩) rfl

/-- A backup that has finished has its snapshot there, if it makes one. If no index that supersedes others has been
stored since it began, the snapshot is of what was to be backed up. -/
theorem finished_holds_partial (hU : Apart ids U X S) (hH : Healthy C ids R0) (hK : Known ids U X S R0)
    {m : Shared ι Id} (h : Shared.Reachable (May C cut env ids cores U X S R0) R0 m) (ht : Together ids U m)
    {k : ι} {p : Proc Id} (hk : m.proc k = some p) (hf : p.finished)
    (hb : IsBackup C cut ids cores p.job a plan) {sn : Snapshot Id} (hsn : plan.post = .ok [.putSnap sn]) :
    (ids.snapId sn, sn) ∈ m.repo.snapshots ∧
    ((∀ e ∈ m.repo.indexes, e.2.supersedes ≠ [] → e ∈ p.job.w.repo.indexes) →
      Holds C m.repo sn.tree (arrange (keep a.filter a.pathOf a.fs))) := by
  obtain ⟨alone, hi⟩ := together_inv hU hH hK h ht
  obtain ⟨g1, r, g2, g3, _, g4⟩ := done hU hH hK h ht hk hf hb hsn hi
  have hnp : ¬ isPrune p.job := fun h1 => h1 (hb.backs (started hU hH hK h ht k p hk).2.1).sup
  exact ⟨g1, fun hn => g4 (fun b h1 _ => hi.unpruned hU hk hnp hn g2 g3 h1)⟩

/-- Even if one has, that is so if all that the backup needs of what was there when it began can still be found,
and the prune, when it began, found none of what the backup adds. -/
theorem beside_holds_partial (hU : Apart ids U X S) (hH : Healthy C ids R0) (hK : Known ids U X S R0)
    {m : Shared ι Id} (h : Shared.Reachable (May C cut env ids cores U X S R0) R0 m) (ht : Together ids U m)
    {k : ι} {p : Proc Id} (hk : m.proc k = some p) (hf : p.finished)
    (hb : IsBackup C cut ids cores p.job a plan) {sn : Snapshot Id} (hsn : plan.post = .ok [.putSnap sn])
    (hold : ∀ b, Has C p.job.w.repo b → Relies C cut ids p.job.w a plan b → Has C m.repo b)
    (hnew : ∀ i q, m.proc i = some q → isPrune q.job → ∀ x ∈ gives p.job, Unlisted q.job.w.repo x) :
    Holds C m.repo sn.tree (arrange (keep a.filter a.pathOf a.fs)) := by
  obtain ⟨alone, hi⟩ := together_inv hU hH hK h ht
  obtain ⟨_, r, g2, g3, _, g4⟩ := done hU hH hK h ht hk hf hb hsn hi
  obtain ⟨_, f1, f2, _⟩ := started hU hH hK h ht k p hk
  have hB := hb.backs f1
  have hnp : ¬ isPrune p.job := fun h1 => h1 hB.sup
  refine g4 (fun b h1 h2 => ?_)
  rcases hi.added hU hk hnp f2 hB.sound
    (fun i q hq hpr => ⟨(started hU hH hK h ht i q hq).2.2.1, hnew i q hq hpr⟩) g2 g3 h1 with h3 | h3
  · exact hold b h3 (h2 h3)
  · exact h3

end

/-! ## What can go wrong, and an example -/

def planIn (R : Repo ObjectId) (a : BackupArgs) : Plan ObjectId :=
  Demo.planOf (backupPlan Demo.codec Demo.cut (Demo.clean R) (Check.opened R) [] a)

/-- A backup to repository `R`, which has no snapshots, from an empty working directory. -/
def jobIn (R : Repo ObjectId) (a : BackupArgs) : Job ObjectId :=
  ⟨liveCfg C27.fullIds 4 (planIn R a).start, Demo.clean R, (planIn R a).main, (planIn R a).posts⟩

/-- The prune of `C27.repo2`, from which everything has been forgotten. -/
def prune2 : Job ObjectId :=
  ⟨liveCfg C27.fullIds 4 C27.plan3.start, Demo.clean C27.repo2, C27.plan3.main, C27.plan3.posts⟩

/-- The repository when a run has joined its threads. -/
def joinedAt (plan : Plan ObjectId) (R : Repo ObjectId) : Repo ObjectId :=
  putItem (C27.ranTo plan.start R (sends plan.main)).1
    (.index (C27.fullIds.indexId (C27.ranTo plan.start R (sends plan.main)).2) (C27.ranTo plan.start R (sends plan.main)).2)

theorem joins {plan : Plan ObjectId} {R : Repo ObjectId} (h : C27.canEnd plan R = true) :
    ∃ s, Reachable (liveCfg C27.fullIds 4 plan.start) (Demo.clean R) plan.main s ∧ s.joined = true ∧
      s.world = Demo.clean (joinedAt plan R) := by
  simp only [C27.canEnd, Bool.and_eq_true, decide_eq_true_eq, Bool.not_eq_true'] at h
  obtain ⟨⟨⟨h1, h2⟩, h3⟩, h4⟩ := h
  obtain ⟨s, hs, hj, hw⟩ := simple_run C27.fullIds plan.start R (sends plan.main) h2 h3 h4
  rw [← h1] at hs
  exact ⟨s, hs, hj, hw⟩

/-- The file of `C27.args1` by another name. -/
def args5 : BackupArgs := { C27.args1 with
  fs := .leaf [98] (Demo.fileMd 3 5) (.file [1, 2, 3]) .nil
  now := 3000 }

/-- The repository once the index of the prune is stored and nothing has been removed yet. -/
def repo2' : Repo ObjectId := joinedAt C27.plan3 C27.repo2

/-- The packs of all that follows, and the entries and snapshots. -/
def packs : List (Pack ObjectId) :=
  arrangements (sends (planIn C65.none_ C27.args1).main) ++ arrangements (sends (planIn C27.repo2 args5).main) ++
  arrangements (sends (planIn repo2' args5).main) ++ arrangements (sends (planIn C27.repo2 C65.args3).main)

def entries : BMap ObjectId (Manifest ObjectId) := entriesOf C27.fullIds packs

def snaps : List (Snapshot ObjectId) :=
  C65.snapsOf ((planIn C65.none_ C27.args1).posts ++ (planIn C27.repo2 args5).posts ++
    (planIn repo2' args5).posts ++ (planIn C27.repo2 C65.args3).posts)

def U (bs : Pack ObjectId) : Prop := bs ∈ packs
def X (x : Index ObjectId) : Prop := (x.supersedes = [] ∧ x.packs.Sublist entries) ∨ x = C27.plan3.start
def S (s : Snapshot ObjectId) : Prop := s ∈ snaps

theorem packs_inj : ∀ x ∈ packs, ∀ y ∈ packs,
    C27.fullIds.packId (Pack.manifestOf x) = C27.fullIds.packId (Pack.manifestOf y) → x = y := by decide +kernel

theorem indexes_inj : ((C27.plan3.start :: entries.sublists'.map fun ps => ⟨[], ps⟩).map C27.fullIds.indexId).Nodup := by
  decide +kernel

theorem snaps_inj : ∀ s ∈ snaps, ∀ t ∈ snaps, C27.fullIds.snapId s = C27.fullIds.snapId t → s = t := by decide +kernel

theorem apart : Apart C27.fullIds U X S := by
  refine ⟨fun x y hx hy => packs_inj x hx y hy, ?_, fun x y hx hy => snaps_inj x hx y hy⟩
  have hm : ∀ x, X x → x ∈ C27.plan3.start :: entries.sublists'.map fun ps => (⟨[], ps⟩ : Index ObjectId) := by
    rintro ⟨xs, xp⟩ (⟨h1, h2⟩ | h)
    · simp only at h1 h2
      subst h1
      exact List.mem_cons_of_mem _ (List.mem_map.mpr ⟨xp, List.mem_sublists'.mpr h2, rfl⟩)
    · rw [h]; exact List.mem_cons_self
  exact fun x y hx hy he => List.inj_on_of_nodup_map indexes_inj (hm x hx) (hm y hy) he

/-- What is to be checked of a backup. -/
structure Good (R : Repo ObjectId) (a : BackupArgs) : Prop where
  healthy : Healthy Demo.codec C27.fullIds R
  bare : R.snapshots = []
  plan : Demo.isOk (backupPlan Demo.codec Demo.cut (Demo.clean R) (Check.opened R) [] a) = true
  fits : Fits (keep a.filter a.pathOf a.fs)
  few : (keep a.filter a.pathOf a.fs).names.length < 2 ^ 64
  sorted : SubsSorted a.fs
  live : a.dryRun = false
  blobs : ∀ b ∈ emptyBlob Demo.codec :: (Check.blobs R ++ offered Demo.codec Demo.cut (Check.opened R) [] a),
    ∀ b' ∈ emptyBlob Demo.codec :: (Check.blobs R ++ offered Demo.codec Demo.cut (Check.opened R) [] a),
    Demo.codec.hash b.data = Demo.codec.hash b'.data → b.data = b'.data ∧ b.kind = b'.kind
  start : (planIn R a).start = Index.empty
  packs : Check.packsDiffer C27.fullIds (Demo.clean R) (planIn R a).main = true
  entries : ∀ bs ∈ arrangements (sends (planIn R a).main), (C27.fullIds.packId (Pack.manifestOf bs), Pack.manifestOf bs) ∈
    entriesOf C27.fullIds (arrangements (sends (planIn R a).main))
  indexes : ∀ ps ∈ (entriesOf C27.fullIds (arrangements (sends (planIn R a).main))).sublists', ∀ e ∈ R.indexes,
    C27.fullIds.indexId ⟨[], ps⟩ ∉ e.2.supersedes ∧ (C27.fullIds.indexId ⟨[], ps⟩ = e.1 → e.2 = ⟨[], ps⟩)
  formed : ∀ bs ∈ arrangements (sends (planIn R a).main), bs ∈ C66.packs
  snaps : ∀ s ∈ C65.snapsOf (planIn R a).posts, s ∈ C66.snaps

theorem entries_in : ∀ bs ∈ packs, (C27.fullIds.packId (Pack.manifestOf bs), Pack.manifestOf bs) ∈ entries := by
  decide +kernel

theorem Good.backup {R : Repo ObjectId} {a : BackupArgs} (h : Good R a) :
    IsBackup Demo.codec Demo.cut C27.fullIds 4 (jobIn R a) a (planIn R a) := by
  refine ⟨fun _ => ⟨Check.opened R, [], (fun i s => by simp [jobIn, Demo.clean, h.bare]), ⟨Demo.cut_contract, h.healthy.sound, h.healthy.pack_names,
    Demo.leftover_clean h.healthy, Check.opened_opens h.healthy, (by intro p hp; cases hp), h.fits, h.few, h.sorted,
    (by intro p d0 h; cases h)⟩, ⟨?_, Check.packsDiffer_sound h.packs, ?_⟩, Demo.planOf_eq h.plan⟩, h.live,
    (by rw [h.start]; rfl), ⟨rfl, rfl, rfl⟩, (by intro x hx; cases hx)⟩
  · have hm : ∀ b, (Stored (Demo.clean R) b ∨ b ∈ offered Demo.codec Demo.cut (Check.opened R) [] a) →
        b ∈ emptyBlob Demo.codec :: (Check.blobs R ++ offered Demo.codec Demo.cut (Check.opened R) [] a) := by
      rintro b (⟨p, bs, (⟨h1, h2⟩ | ⟨x, h1, _⟩), h3⟩ | h1)
      · exact List.mem_cons_of_mem _ (List.mem_append_left _ (Check.mem_blobs.mpr ⟨p, bs, h1, h2, h3⟩))
      · cases h1
      · exact List.mem_cons_of_mem _ (List.mem_append_right _ h1)
    exact ⟨fun b b' g g' he => (h.blobs b (hm b g) b' (g'.elim (hm b') (fun e => e ▸ List.mem_cons_self)) he).1,
      fun b b' g g' he => (h.blobs b (hm b g) b' (hm b' g') (by rw [he])).2⟩
  · intro x hx
    obtain ⟨h1, h2⟩ := writes_sublist h.start hx (BMap.sorted_ofList _) h.entries
    obtain ⟨xs, xp⟩ := x
    simp only at h1 h2
    subst h1
    have := h.indexes xp (List.mem_sublists'.mpr h2)
    refine ⟨?_, fun y hy => (this _ hy).2 rfl, by
      show _ ∉ (planIn R a).start.supersedes; rw [h.start]; simp [Index.empty]⟩
    rintro ⟨i, y, h3, h4⟩
    exact (this _ h3).1 h4

theorem Good.may {R R0 : Repo ObjectId} {a : BackupArgs} (h : Good R a) (hn : ∀ e ∈ R0.indexes, e.2.supersedes = []) :
    May Demo.codec Demo.cut Demo.env C27.fullIds 4 U X S R0 (jobIn R a) := by
  refine ⟨.inl ⟨a, planIn R a, h.backup, ?_⟩, ?_, ?_, ?_⟩
  · rintro x _ ⟨i, y, h1, h2⟩
    rw [hn _ h1] at h2
    cases h2
  · rintro bs (⟨p, hp⟩ | hf)
    · cases hp
    · exact h.formed _ (formed_arrangement hf)
  · intro x hx
    exact .inl (writes_sublist h.start hx (BMap.sorted_ofList _) (fun bs hb => entries_in bs (h.formed bs hb)))
  · intro s hs
    exact h.snaps s (List.mem_filterMap.mpr ⟨.putSnap s, hs, rfl⟩)

theorem sends3 : C27.plan3.main = [] ∧ C27.plan3.start.packs = [] := by decide +kernel

theorem writes3 {c : Cfg ObjectId} (hc : c.start = C27.plan3.start) {x : Index ObjectId}
    (h : Writes c (sends C27.plan3.main) x) : x = C27.plan3.start := by
  obtain ⟨h1, _, news, rest, h3, _, h5, h6⟩ := h
  rw [sends3.1] at h3
  have hnews : news = [] := by
    have h7 := List.append_eq_nil_iff.mp h3.eq_nil
    cases news with
    | nil => rfl
    | cons e l =>
      have := (h5 e List.mem_cons_self).1
      exact absurd (List.flatMap_eq_nil_iff.mp h7.1 e List.mem_cons_self) this
  subst hnews
  rw [hc, sends3.2] at h6
  obtain ⟨xs, xp⟩ := x
  simp only at h1 h6
  have h8 : xp = [] := h6.eq_nil
  rw [hc] at h1
  rw [h1, h8, ← sends3.2]

theorem indexes3 : C27.fullIds.indexId C27.plan3.start ∉ BMap.keys C27.repo2.indexes ∧
    ∀ e ∈ C27.repo2.indexes, e.2.supersedes = [] := by decide +kernel

theorem empty3 : ∀ b ∈ Check.blobs C27.repo2, b.id = Demo.codec.emptyId → b.kind = .tree := by decide +kernel

theorem isPrune2 : IsPrune Demo.codec Demo.env C27.fullIds 4 prune2 C27.plan3 := by
  refine ⟨⟨Check.opened C27.repo2, [], ⟨Demo.env_ok, C27.healthy2, (Demo.leftover_clean C27.healthy2).prune (by intro x hx; cases hx),
    Check.opened_opens C27.healthy2, fun i s => ⟨fun h => (by cases h), fun h => (by cases h)⟩, ?_⟩,
    ⟨Check.packsDiffer_sound (by decide +kernel), ?_⟩, C27.plan3_eq⟩, rfl, rfl, rfl⟩
  · intro x hx
    have := empty3 _ (Check.has_iff.mp hx).2 rfl
    cases this
  · intro x hx
    have := writes3 rfl hx
    subst this
    refine ⟨indexes3.1, ?_⟩
    rintro ⟨i, y, h1, h2⟩
    rw [indexes3.2 _ h1] at h2
    cases h2

theorem posts3 : ∀ o ∈ C27.plan3.posts, ∀ s, o ≠ .putSnap s := by
  have h : (C65.snapsOf C27.plan3.posts) = [] := by decide +kernel
  rintro o ho s rfl
  have : s ∈ C65.snapsOf C27.plan3.posts := List.mem_filterMap.mpr ⟨_, ho, rfl⟩
  rw [h] at this
  cases this

theorem may_prune2 (R0 : Repo ObjectId) : May Demo.codec Demo.cut Demo.env C27.fullIds 4 U X S R0 prune2 := by
  refine ⟨.inr ⟨_, isPrune2⟩, ?_, ?_, ?_⟩
  · rintro bs (⟨p, hp⟩ | ⟨hne, k, hf⟩)
    · cases hp
    · have h1 : prune2.main = [] := sends3.1
      rw [h1] at hf
      have : bs = [] := by
        have := hf.sublist
        cases k <;> exact List.sublist_nil.mp this
      exact absurd this hne
  · intro x hx
    exact .inr (writes3 rfl hx)
  · intro s hs
    exact absurd rfl (posts3 _ hs s)

theorem good1 : Good C65.none_ C27.args1 where
  healthy := Demo.healthy_empty ..
  bare := by decide +kernel
  plan := by decide +kernel
  fits := ⟨by decide, Demo.okFileMd _ _ (by decide) (by decide), by simp [LeafFits], trivial⟩
  few := by decide
  sorted := trivial
  live := rfl
  blobs := by decide +kernel
  start := by decide +kernel
  packs := by decide +kernel
  entries := by decide +kernel
  indexes := by decide +kernel
  formed := by decide +kernel
  snaps := by decide +kernel

theorem good5 : Good C27.repo2 args5 where
  healthy := C27.healthy2
  bare := by decide +kernel
  plan := by decide +kernel
  fits := ⟨by decide, Demo.okFileMd _ _ (by decide) (by decide), by simp [LeafFits], trivial⟩
  few := by decide
  sorted := trivial
  live := rfl
  blobs := by decide +kernel
  start := by decide +kernel
  packs := by decide +kernel
  entries := by decide +kernel
  indexes := by decide +kernel
  formed := by decide +kernel
  snaps := by decide +kernel

theorem good6 : Good repo2' args5 where
  healthy := Check.healthy_sound (k := 2) (by decide +kernel)
  bare := by decide +kernel
  plan := by decide +kernel
  fits := ⟨by decide, Demo.okFileMd _ _ (by decide) (by decide), by simp [LeafFits], trivial⟩
  few := by decide
  sorted := trivial
  live := rfl
  blobs := by decide +kernel
  start := by decide +kernel
  packs := by decide +kernel
  entries := by decide +kernel
  indexes := by decide +kernel
  formed := by decide +kernel
  snaps := by decide +kernel

theorem good3 : Good C27.repo2 C65.args3 where
  healthy := C27.healthy2
  bare := by decide +kernel
  plan := by decide +kernel
  fits := ⟨by decide, Demo.okFileMd _ _ (by decide) (by decide), by simp [LeafFits], trivial⟩
  few := by decide
  sorted := trivial
  live := rfl
  blobs := by decide +kernel
  start := by decide +kernel
  packs := by decide +kernel
  entries := by decide +kernel
  indexes := by decide +kernel
  formed := by decide +kernel
  snaps := by decide +kernel

theorem known2 : Known C27.fullIds U X S C27.repo2 := by
  have h1 : ∀ e ∈ C27.repo2.packs, e.1 = C27.fullIds.packId (Pack.manifestOf e.2) ∧ e.2 ∈ packs := by decide +kernel
  have h2 : ∀ e ∈ C27.repo2.indexes, e.1 = C27.fullIds.indexId e.2 ∧ e.2.supersedes = [] ∧
    e.2.packs ∈ entries.sublists' := by decide +kernel
  refine ⟨fun p bs h => h1 _ h, fun i x h => ?_, fun i s h => (by cases h)⟩
  obtain ⟨g1, g2, g3⟩ := h2 _ h
  exact ⟨g1, .inl ⟨g2, List.mem_sublists'.mp g3⟩⟩

/-- A process goes on until it joins its threads. -/
theorem lift_joined {may : Job ObjectId → Prop} {m : Shared ι ObjectId} {i : ι} {plan : Plan ObjectId} {R : Repo ObjectId}
    (hi : m.proc i = some ⟨⟨liveCfg C27.fullIds 4 plan.start, Demo.clean R, plan.main, plan.posts⟩,
      init (liveCfg C27.fullIds 4 plan.start) (Demo.clean R) plan.main, plan.posts⟩)
    (h : C27.canEnd plan m.repo = true) :
    ∃ u : State ObjectId, u.joined = true ∧ Relation.ReflTransGen (Shared.Step may) m
      ⟨joinedAt plan m.repo, Function.update m.proc i
        (some ⟨⟨liveCfg C27.fullIds 4 plan.start, Demo.clean R, plan.main, plan.posts⟩, u, plan.posts⟩)⟩ := by
  obtain ⟨s, hs, hj, hw⟩ := joins h
  obtain ⟨u, hu, hr⟩ := lift_run (may := may) hi (by exact ctl_init ..) (t := s) hs
  rw [hw] at hr hu
  refine ⟨u, ?_, hr⟩
  rw [← hu] at hj
  exact hj

/-- What each step of the runs below may start. -/
abbrev Can (R0 : Repo ObjectId) : Job ObjectId → Prop :=
  May Demo.codec Demo.cut Demo.env C27.fullIds 4 U X S R0

theorem no_super : ∀ e ∈ C27.repo2.indexes, e.2.supersedes = [] := indexes3.2

/-- The repository that a backup leaves before it stores its snapshot is one from which all was forgotten. -/
theorem window : joinedAt (planIn C65.none_ C27.args1) C65.none_ = C27.repo2 := by decide +kernel

/-- The first: the prune starts when the backup has stored its index and not yet its snapshot. -/
theorem prune_in_window_loses : ∃ (m : Shared Bool ObjectId) (p q : Proc ObjectId) (sn : Snapshot ObjectId),
    Shared.Reachable (Can C65.none_) C65.none_ m ∧ m.proc true = some p ∧ m.proc false = some q ∧
    p.job = jobIn C65.none_ C27.args1 ∧ q.job = prune2 ∧ p.finished ∧ q.finished ∧
    (planIn C65.none_ C27.args1).post = .ok [.putSnap sn] ∧ (C27.fullIds.snapId sn, sn) ∈ m.repo.snapshots ∧
    ¬ Readable Demo.codec m.repo sn := by
  let m1 : Shared Bool ObjectId := ⟨C65.none_, Function.update (fun _ => none) true
    (some ⟨jobIn C65.none_ C27.args1, init (jobIn C65.none_ C27.args1).c (jobIn C65.none_ C27.args1).w
      (jobIn C65.none_ C27.args1).main, (jobIn C65.none_ C27.args1).posts⟩)⟩
  have s1 : Shared.Step (Can C65.none_) ⟨C65.none_, fun _ => none⟩ m1 :=
    Shared.Step.start ⟨C65.none_, fun _ => none⟩ true (jobIn C65.none_ C27.args1) rfl rfl
      (good1.may (by intro e he; cases he))
  obtain ⟨u, hu, s2⟩ := lift_joined (may := Can C65.none_) (m := m1) (i := true) (plan := planIn C65.none_ C27.args1)
    (R := C65.none_) rfl (by decide +kernel)
  let pw : Proc ObjectId := ⟨jobIn C65.none_ C27.args1, u, (planIn C65.none_ C27.args1).posts⟩
  let m2 : Shared Bool ObjectId := ⟨C27.repo2, Function.update m1.proc true (some pw)⟩
  have s2 : Relation.ReflTransGen (Shared.Step (Can C65.none_)) m1 m2 := by
    have : m1.repo = C65.none_ := rfl
    rw [this, window] at s2
    exact s2
  let m3 : Shared Bool ObjectId := ⟨C27.repo2, Function.update m2.proc false
    (some ⟨prune2, init prune2.c prune2.w prune2.main, prune2.posts⟩)⟩
  have s3 : Shared.Step (Can C65.none_) m2 m3 := Shared.Step.start m2 false prune2 rfl rfl (may_prune2 _)
  obtain ⟨q, q1, q2, s4⟩ := lift_finished (may := Can C65.none_) (m := m3) (i := false) (j := prune2)
    (w' := Demo.clean C27.repo3) rfl (C27.ends C27.can3)
  have hq : Function.update m3.proc false (some q) = Function.update (Function.update m1.proc false (some q)) true (some pw) := by
    show Function.update (Function.update (Function.update m1.proc true (some pw)) false _) false (some q) = _
    rw [Function.update_idem, Function.update_comm (by decide)]
  rw [hq] at s4
  have s5 := lift_posts (may := Can C65.none_) (c := (jobIn C65.none_ C27.args1).c) (planIn C65.none_ C27.args1).posts
    (R := C27.repo3) (f := Function.update m1.proc false (some q)) (i := true) (p := pw) rfl hu rfl
  have hsn : ∃ sn, (planIn C65.none_ C27.args1).post = .ok [.putSnap sn] ∧ sn.tree ≠ Demo.codec.emptyId := by
    refine ⟨(snaps.head (by decide +kernel)), ?_, ?_⟩ <;> decide +kernel
  obtain ⟨sn, hsn, hne⟩ := hsn
  have hposts : (planIn C65.none_ C27.args1).posts = [.putSnap sn] := by unfold Plan.posts; rw [hsn]
  refine ⟨_, { pw with left := [] }, q, sn, (Relation.ReflTransGen.head s1 s2).trans ((Relation.ReflTransGen.head s3 s4).trans s5),
    rfl, rfl, rfl, q1, ⟨hu, rfl⟩, q2, hsn, ?_, ?_⟩
  · rw [hposts]
    exact (BMap.mem_insert_iff (by rw [C27.no_packs3.2]; unfold BMap.Sorted; decide +kernel)).mpr (.inl ⟨rfl, rfl⟩)
  · refine Check.no_root hne (fun b hb => ?_)
    exfalso
    obtain ⟨_, p, bs, _, hp, _⟩ := hb
    rw [hposts] at hp
    have hp : (p, bs) ∈ C27.repo3.packs := hp
    rw [C27.no_packs3.1] at hp
    cases hp

/-- A prune and a backup start; the prune finishes; the backup finishes. -/
theorem beside_run {a : BackupArgs} (h : Good C27.repo2 a) (hc : C27.canEnd (planIn C27.repo2 a) C27.repo3 = true) :
    ∃ (m : Shared Bool ObjectId) (p q : Proc ObjectId),
      Shared.Reachable (Can C27.repo2) C27.repo2 m ∧ m.proc true = some p ∧ m.proc false = some q ∧
      p.job = jobIn C27.repo2 a ∧ q.job = prune2 ∧ p.finished ∧ q.finished ∧
      m.repo = C27.endedAt (planIn C27.repo2 a) C27.repo3 := by
  let m1 : Shared Bool ObjectId := ⟨C27.repo2, Function.update (fun _ => none) false
    (some ⟨prune2, init prune2.c prune2.w prune2.main, prune2.posts⟩)⟩
  have s1 : Shared.Step (Can C27.repo2) ⟨C27.repo2, fun _ => none⟩ m1 :=
    Shared.Step.start ⟨C27.repo2, fun _ => none⟩ false prune2 rfl rfl (may_prune2 _)
  let m2 : Shared Bool ObjectId := ⟨C27.repo2, Function.update m1.proc true
    (some ⟨jobIn C27.repo2 a, init (jobIn C27.repo2 a).c (jobIn C27.repo2 a).w (jobIn C27.repo2 a).main,
      (jobIn C27.repo2 a).posts⟩)⟩
  have s2 : Shared.Step (Can C27.repo2) m1 m2 := Shared.Step.start m1 true (jobIn C27.repo2 a) rfl rfl (h.may no_super)
  obtain ⟨q, q1, q2, s3⟩ := lift_finished (may := Can C27.repo2) (m := m2) (i := false) (j := prune2)
    (w' := Demo.clean C27.repo3) rfl (C27.ends C27.can3)
  obtain ⟨p, p1, p2, s4⟩ := lift_finished (may := Can C27.repo2)
    (m := ⟨C27.repo3, Function.update m2.proc false (some q)⟩) (i := true) (j := jobIn C27.repo2 a)
    (w' := Demo.clean (C27.endedAt (planIn C27.repo2 a) C27.repo3)) rfl (C27.ends hc)
  exact ⟨_, p, q, ((Relation.ReflTransGen.single s1).tail s2).trans (s3.trans s4), rfl, rfl, p1, q1, p2, q2, rfl⟩

/-- A prune that copies nothing and a backup, none of whose packs the prune removes. -/
theorem together {R : Repo ObjectId} {a : BackupArgs} (hs : (planIn R a).start = Index.empty)
    (hc : ∀ bs ∈ packs, (∀ b ∈ bs, b.id ∈ adds (planIn R a).start (planIn R a).main) →
      Post.rmPack (C27.fullIds.packId (Pack.manifestOf bs)) ∉ C27.plan3.posts)
    {m : Shared Bool ObjectId} {p q : Proc ObjectId} (hp : m.proc true = some p) (hq : m.proc false = some q)
    (jp : p.job = jobIn R a) (jq : q.job = prune2) : Together C27.fullIds U m := by
  have h1 : jobs m true = some (jobIn R a) := by rw [jobs_of hp, jp]
  have h2 : jobs m false = some prune2 := by rw [jobs_of hq, jq]
  have hnp : ¬ isPrune (jobIn R a) := fun h => h (by show (planIn R a).start.supersedes = []; rw [hs]; rfl)
  have hg : gives prune2 = [] := by
    show adds C27.plan3.start C27.plan3.main = []
    decide +kernel
  have hpr : isPrune prune2 := by
    show C27.plan3.start.supersedes ≠ []
    decide +kernel
  refine ⟨?_, ?_, ?_⟩
  · rintro (_ | _) (_ | _) j j' hj hj' g1 g2
    · rfl
    · rw [h1] at hj'; cases hj'; exact absurd g2 hnp
    · rw [h1] at hj; cases hj; exact absurd g1 hnp
    · rfl
  · rintro (_ | _) (_ | _) j j' hj hj' hne x g1 _ g2
    · exact absurd rfl hne
    · rw [h2] at hj; cases hj; rw [hg] at g1; cases g1
    · rw [h2] at hj'; cases hj'; rw [hg] at g2; cases g2
    · exact absurd rfl hne
  · rintro (_ | _) (_ | _) j j' hj hj' g1 g2 bs g3 g4
    · rw [h2] at hj'; cases hj'; exact absurd hpr g2
    · rw [h2] at hj; cases hj; rw [h1] at hj'; cases hj'; exact hc bs g3 g4
    · rw [h1] at hj; cases hj; exact absurd g1 hnp
    · rw [h1] at hj'; cases hj'; rw [h1] at hj; cases hj; exact absurd g1 hnp

/-- The tree of a snapshot, if it is there. -/
def treeIn (R : Repo ObjectId) (s : Snapshot ObjectId) : Tree ObjectId :=
  ((((Check.blobs R).find? fun b => b.kind = .tree ∧ b.id = s.tree).bind fun b => Demo.codec.decTree b.data).map
    Prod.fst).getD []

/-- The snapshot of a plan. -/
def snapOf (plan : Plan ObjectId) : Snapshot ObjectId :=
  ((C65.snapsOf plan.posts).head?).getD ⟨0, [], [], [], [], Demo.codec.emptyId⟩

/-- The chunk of the file. -/
def chunk : ObjectId := Demo.codec.hash [1, 2, 3]

theorem lacks {R : Repo ObjectId} {s : Snapshot ObjectId} (e : Name × Node ObjectId)
    (h0 : Demo.codec.decTree (Demo.codec.encTree (treeIn R s)) = some (treeIn R s, []))
    (h1 : s.tree ≠ Demo.codec.emptyId)
    (h2 : ∀ b ∈ Check.blobs R, b.kind = .tree → b.id = s.tree → b.data = Demo.codec.encTree (treeIn R s))
    (h3 : e ∈ treeIn R s) (h4 : e.2.contents = .file [chunk])
    (h5 : ∀ b ∈ Check.blobs R, b.kind = .chunk → b.id ≠ chunk) : ¬ Readable Demo.codec R s := by
  obtain ⟨n, c, md⟩ := e
  simp only at h4
  subst h4
  exact Check.no_chunk h0 h1 (fun b hb => h2 b (Check.has_iff.mp hb).2) h3 List.mem_cons_self
    (fun b hb => h5 b (Check.has_iff.mp hb).2)

/-- What a repository has when the second backup is through. -/
abbrev garbage : Repo ObjectId := C27.endedAt (planIn C27.repo2 args5) C27.repo3

theorem lost_garbage : ¬ Readable Demo.codec garbage (snapOf (planIn C27.repo2 args5)) :=
  lacks ([98], ⟨.file [chunk], Demo.fileMd 3 5⟩) (by decide +kernel) (by decide +kernel) (by decide +kernel)
    (by decide +kernel) rfl (by decide +kernel)

/-- The second: a backup finds a chunk that no snapshot uses, and does not store it again; a prune that began before
the backup stored its snapshot removes it. All of `Together` holds, so the repository is in order; the snapshot that
the backup has stored cannot be read. -/
theorem prune_takes_what_backup_found : ∃ (m : Shared Bool ObjectId) (p q : Proc ObjectId) (sn : Snapshot ObjectId),
    Shared.Reachable (Can C27.repo2) C27.repo2 m ∧ m.proc true = some p ∧ m.proc false = some q ∧
    p.job = jobIn C27.repo2 args5 ∧ q.job = prune2 ∧ p.finished ∧ q.finished ∧ Together C27.fullIds U m ∧
    Orderly Demo.codec C27.fullIds m.repo ∧
    (planIn C27.repo2 args5).post = .ok [.putSnap sn] ∧ (C27.fullIds.snapId sn, sn) ∈ m.repo.snapshots ∧
    ¬ Readable Demo.codec m.repo sn := by
  obtain ⟨m, p, q, h1, h2, h3, h4, h5, h6, h7, h8⟩ := beside_run good5 (by decide +kernel)
  have ht := together good5.start (by decide +kernel) h2 h3 h4 h5
  refine ⟨m, p, q, snapOf (planIn C27.repo2 args5), h1, h2, h3, h4, h5, h6, h7, ht,
    (always_orderly_partial apart C27.healthy2 known2 h1 ht).1, by decide +kernel, ?_, ?_⟩
  · rw [h8]; decide +kernel
  · rw [h8]; exact lost_garbage

/-- What a repository has when a backup that began once the index of the prune was stored is through, and then
the prune. -/
abbrev removed : Repo ObjectId :=
  C27.plan3.posts.foldl (applyPost C27.fullIds) (C27.endedAt (planIn repo2' args5) repo2')

theorem lost_removed : ¬ Readable Demo.codec removed (snapOf (planIn repo2' args5)) :=
  lacks ([98], ⟨.file [chunk], Demo.fileMd 3 5⟩) (by decide +kernel) (by decide +kernel) (by decide +kernel)
    (by decide +kernel) rfl (by decide +kernel)

theorem can6 : C27.canEnd (planIn repo2' args5) repo2' = true := by decide +kernel

theorem stored_removed : (C27.fullIds.snapId (snapOf (planIn repo2' args5)), snapOf (planIn repo2' args5)) ∈
    removed.snapshots := by decide +kernel

theorem missing_removed : ∃ e ∈ Check.listed removed, e.1 ∉ BMap.keys removed.packs := by decide +kernel

/-- The third: the prune has stored its index, which no longer lists a pack that it is about to remove. A backup
that begins now does not find the chunk in that pack, and stores a pack with it, which is the same. Then the prune
removes it. So an index refers to a pack that is missing, and the snapshot cannot be read. -/
theorem prune_removes_new_pack : ∃ (m : Shared Bool ObjectId) (p q : Proc ObjectId) (sn : Snapshot ObjectId),
    Shared.Reachable (Can C27.repo2) C27.repo2 m ∧ m.proc true = some p ∧ m.proc false = some q ∧
    p.job = jobIn repo2' args5 ∧ q.job = prune2 ∧ p.finished ∧ q.finished ∧
    (∃ pk mf, Listed m.repo.indexes pk mf ∧ ∀ bs, (pk, bs) ∉ m.repo.packs) ∧
    (planIn repo2' args5).post = .ok [.putSnap sn] ∧ (C27.fullIds.snapId sn, sn) ∈ m.repo.snapshots ∧
    ¬ Readable Demo.codec m.repo sn := by
  let m1 : Shared Bool ObjectId := ⟨C27.repo2, Function.update (fun _ => none) false
    (some ⟨prune2, init prune2.c prune2.w prune2.main, prune2.posts⟩)⟩
  have s1 : Shared.Step (Can C27.repo2) ⟨C27.repo2, fun _ => none⟩ m1 :=
    Shared.Step.start ⟨C27.repo2, fun _ => none⟩ false prune2 rfl rfl (may_prune2 _)
  obtain ⟨u, hu, s2⟩ := lift_joined (may := Can C27.repo2) (m := m1) (i := false) (plan := C27.plan3)
    (R := C27.repo2) rfl C27.can3
  let pq : Proc ObjectId := ⟨prune2, u, C27.plan3.posts⟩
  let m2 : Shared Bool ObjectId := ⟨repo2', Function.update m1.proc false (some pq)⟩
  have s2 : Relation.ReflTransGen (Shared.Step (Can C27.repo2)) m1 m2 := s2
  let m3 : Shared Bool ObjectId := ⟨repo2', Function.update m2.proc true
    (some ⟨jobIn repo2' args5, init (jobIn repo2' args5).c (jobIn repo2' args5).w (jobIn repo2' args5).main,
      (jobIn repo2' args5).posts⟩)⟩
  have s3 : Shared.Step (Can C27.repo2) m2 m3 :=
    Shared.Step.start m2 true (jobIn repo2' args5) rfl rfl (good6.may no_super)
  obtain ⟨p, p1, p2, s4⟩ := lift_finished (may := Can C27.repo2) (m := m3) (i := true) (j := jobIn repo2' args5)
    (w' := Demo.clean (C27.endedAt (planIn repo2' args5) repo2')) rfl (C27.ends can6)
  have hp : Function.update m3.proc true (some p) =
      Function.update (Function.update m1.proc true (some p)) false (some pq) := by
    show Function.update (Function.update (Function.update m1.proc false (some pq)) true _) true (some p) = _
    rw [Function.update_idem, Function.update_comm (by decide)]
  rw [hp] at s4
  have s5 := lift_posts (may := Can C27.repo2) (c := prune2.c) C27.plan3.posts
    (R := C27.endedAt (planIn repo2' args5) repo2') (f := Function.update m1.proc true (some p)) (i := false)
    (p := pq) rfl hu rfl
  refine ⟨⟨removed, _⟩, p, { pq with left := [] }, snapOf (planIn repo2' args5),
    (Relation.ReflTransGen.head s1 s2).trans ((Relation.ReflTransGen.head s3 s4).trans s5),
    rfl, rfl, p1, rfl, p2, ⟨hu, rfl⟩, ?_, by decide +kernel, stored_removed, lost_removed⟩
  obtain ⟨⟨pk, mf⟩, h1, h2⟩ := missing_removed
  exact ⟨pk, mf, Check.mem_listed.mp h1, fun bs h => h2 (BMap.mem_keys_of_mem h)⟩

theorem new3 : ∀ b ∈ Check.blobs C27.repo2,
    b ∉ offered Demo.codec Demo.cut (Check.opened C27.repo2) [] C65.args3 := by decide +kernel

theorem fresh3 : ∀ l ∈ Check.listed C27.repo2, ∀ e ∈ l.2,
    ∀ x ∈ adds (planIn C27.repo2 C65.args3).start (planIn C27.repo2 C65.args3).main, e.id ≠ x := by decide +kernel

/-- Beside a prune, a backup of a file that is not there yet: all four theorems apply. -/
example : ∃ (m : Shared Bool ObjectId) (p q : Proc ObjectId) (sn : Snapshot ObjectId),
    Shared.Reachable (Can C27.repo2) C27.repo2 m ∧ m.proc true = some p ∧ m.proc false = some q ∧
    p.job = jobIn C27.repo2 C65.args3 ∧ q.job = prune2 ∧ p.finished ∧ q.finished ∧ Together C27.fullIds U m ∧
    Orderly Demo.codec C27.fullIds m.repo ∧ (C27.fullIds.snapId sn, sn) ∈ m.repo.snapshots ∧
    Holds Demo.codec m.repo sn.tree (arrange (keep C65.args3.filter C65.args3.pathOf C65.args3.fs)) := by
  obtain ⟨m, p, q, h1, h2, h3, h4, h5, h6, h7, h8⟩ := beside_run good3 (by decide +kernel)
  have ht := together good3.start (by decide +kernel) h2 h3 h4 h5
  have hsn : (planIn C27.repo2 C65.args3).post = .ok [.putSnap (snapOf (planIn C27.repo2 C65.args3))] := by
    decide +kernel
  have hb : IsBackup Demo.codec Demo.cut C27.fullIds 4 p.job C65.args3 (planIn C27.repo2 C65.args3) := by
    rw [h4]; exact good3.backup
  have hm := (finished_holds_partial apart C27.healthy2 known2 h1 ht h2 h6 hb hsn).1
  have ho := (always_orderly_partial apart C27.healthy2 known2 h1 ht).1
  refine ⟨m, p, q, _, h1, h2, h3, h4, h5, h6, h7, ht, ho, hm,
    beside_holds_partial apart C27.healthy2 known2 h1 ht h2 h6 hb hsn ?_ ?_⟩
  · rintro b g1 ⟨src, snaps, g2, g3, g4, g5⟩
    exfalso
    rw [h4] at g1 g2
    have hs : snaps = [] := List.eq_nil_iff_forall_not_mem.mpr (fun e he => by cases (g2 e.2 e.1).mpr he)
    subst hs
    rcases g5 with g5 | ⟨p, g5, _⟩
    · exact new3 b (Check.has_iff.mp g1).2 g5
    · cases g5
  · intro i r hr hpr x hx
    have hr' : r.job = prune2 := by
      cases i
      · rw [h3] at hr; cases hr; exact h5
      · rw [h2] at hr; cases hr
        rw [h4] at hpr
        exact absurd (show (planIn C27.repo2 C65.args3).start.supersedes = [] by rw [good3.start]; rfl) hpr
    rw [hr']
    rw [h4] at hx
    intro pk mf e hl he
    exact fresh3 _ (Check.mem_listed.mpr hl) e he x hx

end Backpak.C66
