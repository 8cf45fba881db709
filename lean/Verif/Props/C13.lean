import Verif.Lemmas.Backup
import Verif.Props.C16
import Verif.Lemmas.DemoRun

/-!
# C13 - Snapshots appear only once their data is there

For backups; copies are in C30. `Healthy` says of a repository, among other things, that every
snapshot in it is readable: its whole tree and every chunk can be found through the live indexes.
-/

namespace Backpak.C13

open Spec Pipeline

variable {Id : Type} [LinearOrder Id] {C : Codec Id} {cut : Bytes → Nat} {ids : Ids Id} {cores : Nat}
  {src : Source Id} {snaps : List (Snap Id)} {a : BackupArgs} {plan : Plan Id}

/-- The system a backup runs. -/
def cfg (ids : Ids Id) (cores : Nat) (a : BackupArgs) (plan : Plan Id) : Cfg Id :=
  ⟨ids, !a.dryRun, cores, plan.start, fun _ => True⟩

theorem posts_cases (hp : ∃ start sent root, plan.post = backupPost C a snaps start sent root) :
    plan.posts = [] ∨ ∃ sn, a.dryRun = false ∧ plan.post = .ok [.putSnap sn] ∧ plan.posts = [.putSnap sn] := by
  obtain ⟨start, sent, root, hp⟩ := hp
  unfold Plan.posts
  cases hpo : plan.post with
  | error e => exact .inl rfl
  | ok l =>
    rcases post_cases (hp.symm.trans hpo) with rfl | ⟨h1, rfl⟩
    · exact .inl rfl
    · exact .inr ⟨_, h1, rfl, rfl⟩

theorem leftover_put {w : World Id} {m : BMap Id (Snapshot Id)} (h : Leftover C ids w) :
    Leftover C ids ⟨{ w.repo with snapshots := m }, w.cwd⟩ :=
  ⟨h.names, h.sup, h.sorted, h.there, h.ledger⟩

/-- At every instant of a backup the repository is in good order: every snapshot that is visible
has its whole tree and every chunk. -/
theorem always_readable_partial (w w' : World Id) (hB : BackupOk C cut ids w src snaps a)
    (hN : a.dryRun = false → NoClash C cut ids cores w src snaps a plan)
    (hp : backupPlan C cut w src snaps a = .ok plan)
    (h : Instant (cfg ids cores a plan) w plan.main plan.posts w') : Healthy C ids w'.repo := by
  obtain ⟨F, known, here, root, L, _, _, _, _, _, _, hpost⟩ := plan_ok hp
  cases hd : a.dryRun with
  | true =>
    have hcfg : (cfg ids cores a plan).live = false := by simp [cfg, hd]
    cases h with
    | during s hs => rw [(dry hcfg hs).1]; exact hB.healthy
    | after s done rest hs hj hsp =>
      rcases posts_cases (C := C) (snaps := snaps) ⟨_, _, _, hpost⟩ with h1 | ⟨sn, h1, _⟩
      · rw [h1] at hsp
        obtain ⟨rfl, rfl⟩ := List.append_eq_nil_iff.mp hsp.symm
        simp only [List.foldl_nil]
        rw [(dry hcfg hs).1]; exact hB.healthy
      · rw [hd] at h1; cases h1
  | false =>
    have hcfg : cfg ids cores a plan = liveCfg ids cores plan.start := by simp [cfg, liveCfg, hd]
    rw [hcfg] at h
    cases h with
    | during s hs => exact (backup_run hB (hN hd) hp hd hs).1
    | after s done rest hs hj hsp =>
      obtain ⟨g1, _, _, _, g5⟩ := backup_run hB (hN hd) hp hd hs
      rcases posts_cases (C := C) (snaps := snaps) ⟨_, _, _, hpost⟩ with h1 | ⟨sn, _, h1, h2⟩
      · rw [h1] at hsp
        obtain ⟨rfl, rfl⟩ := List.append_eq_nil_iff.mp hsp.symm
        exact g1
      · rw [h2] at hsp
        cases done with
        | nil => exact g1
        | cons o done =>
          simp only [List.cons_append, List.cons.injEq] at hsp
          obtain ⟨rfl, hsp⟩ := hsp
          obtain ⟨rfl, rfl⟩ := List.append_eq_nil_iff.mp hsp.symm
          obtain ⟨root', sent', h3, h4⟩ := g5 hj
          rw [h1] at h3
          rcases post_cases h3.symm with h5 | ⟨_, h5⟩
          · cases h5
          · cases h5
            exact healthy_put g1 ⟨_, h4⟩

/-- And what is in the working directory at any instant is something the next backup can start
from, so that this goes on holding however often backups are interrupted. -/
theorem next_can_start (w w' : World Id) (hB : BackupOk C cut ids w src snaps a)
    (hN : NoClash C cut ids cores w src snaps a plan) (hd : a.dryRun = false)
    (hp : backupPlan C cut w src snaps a = .ok plan)
    (h : Instant (cfg ids cores a plan) w plan.main plan.posts w') :
    Healthy C ids w'.repo ∧ Leftover C ids w' := by
  refine ⟨always_readable_partial w w' hB (fun _ => hN) hp h, ?_⟩
  obtain ⟨F, known, here, root, L, _, _, _, _, _, _, hpost⟩ := plan_ok hp
  have hcfg : cfg ids cores a plan = liveCfg ids cores plan.start := by simp [cfg, liveCfg, hd]
  rw [hcfg] at h
  cases h with
  | during s hs => exact (backup_run hB hN hp hd hs).2.1
  | after s done rest hs hj hsp =>
    have g := (backup_run hB hN hp hd hs).2.1
    rcases posts_cases (C := C) (snaps := snaps) ⟨_, _, _, hpost⟩ with h1 | ⟨sn, _, h1, h2⟩
    · rw [h1] at hsp
      obtain ⟨rfl, rfl⟩ := List.append_eq_nil_iff.mp hsp.symm
      exact g
    · rw [h2] at hsp
      cases done with
      | nil => exact g
      | cons o done =>
        simp only [List.cons_append, List.cons.injEq] at hsp
        obtain ⟨rfl, hsp⟩ := hsp
        obtain ⟨rfl, rfl⟩ := List.append_eq_nil_iff.mp hsp.symm
        exact leftover_put g

theorem formedBy_prefix {here : List Id} {ss ss' : List (Blob Id)} (h : ss' <+: ss) {cur : Pack Id}
    (hc : FormedBy (mainOf here ss') cur) : FormedBy (mainOf here ss) cur := by
  obtain ⟨h1, k, h2⟩ := hc
  rw [sends_mainOf] at h2
  refine ⟨h1, k, ?_⟩
  rw [sends_mainOf]
  exact h2.trans (h.filter _).isInfix

theorem indexOk_prefix {c : Cfg Id} {R : Repo Id} {ss ss' : List (Blob Id)} (h : ss' <+: ss)
    (hx : IndexOk c R ss) : IndexOk c R ss' := by
  rintro x ⟨h1, h2, news, rest, h3, h4⟩
  obtain ⟨l, rfl⟩ := h
  exact hx x ⟨h1, h2, news, rest ++ l, by rw [← List.append_assoc]; exact h3.append_right l, h4⟩

/-- A backup that gives up part way (a file cannot be read, say) has sent only some of its blobs
and drops its channels without joining: the other threads then still upload what they have. At
every instant of that too, every snapshot is readable and the next backup can start. -/
theorem failing_readable_partial (w : World Id) (hB : BackupOk C cut ids w src snaps a)
    (hN : NoClash C cut ids cores w src snaps a plan) (hd : a.dryRun = false)
    (hp : backupPlan C cut w src snaps a = .ok plan)
    (here : List Id) (hr : resumeFrom w = .ok (plan.start, here)) (sent : List (Blob Id))
    (hpre : sent <+: sends plan.main) (s : State Id)
    (h : Reachable (cfg ids cores a plan) w (mainOf here sent) s) :
    Healthy C ids s.world.repo ∧ Leftover C ids s.world := by
  obtain ⟨F, known, here', root, L, hF, hk, hr', hb, hoff, hm, hpost⟩ := plan_ok hp
  have hcfg : cfg ids cores a plan = liveCfg ids cores plan.start := by simp [cfg, liveCfg, hd]
  rw [hcfg] at h
  rw [hr] at hr'
  have hhere : here = here' := by cases hr'; rfl
  subst hhere
  have hu := hN.blobs
  rw [hoff] at hu
  obtain ⟨hfresh, _⟩ := offer_fresh hB.leftover
    (packed_iff hB.healthy.sound hB.leftover hB.opens hk hr) (offered_made hB.runs hF hb) hu
  have hmain : plan.main = mainOf here
      (L.foldl offer ⟨BMap.keys known ++ listedIds plan.start, []⟩).sent := by
    rw [hm, hd]; rfl
  have hpk := hN.packs
  have hix := hN.indexes
  rw [hmain, sends_mainOf] at hix hpre
  rw [hmain] at hpk
  obtain ⟨l, hl⟩ := id hpre
  obtain ⟨g1, g2, _⟩ := add_run hB.healthy hB.leftover hr (hfresh.of_perm (.of_eq hl))
    (fun x y hx hy => hpk x y (hx.imp id (Or.imp id (formedBy_prefix hpre)))
      (hy.imp id (Or.imp id (formedBy_prefix hpre)))) (indexOk_prefix hpre hix) h
  exact ⟨g1, g2⟩

/-- A backup of four blobs into an empty repository, which ends with a snapshot. -/
example : BackupOk Demo.codec Demo.cut Demo.ids Demo.world0 Demo.src0 [] Demo.args0 ∧
    NoClash Demo.codec Demo.cut Demo.ids 4 Demo.world0 Demo.src0 [] Demo.args0 Demo.plan0 ∧
    backupPlan Demo.codec Demo.cut Demo.world0 Demo.src0 [] Demo.args0 = .ok Demo.plan0 ∧
    (sends Demo.plan0.main).length = 4 ∧ Demo.plan0.posts = [.putSnap Demo.snap0] ∧
    resumeFrom Demo.world0 = .ok (Demo.plan0.start, []) := by
  refine ⟨Demo.backupOk0, Demo.noClash0, Demo.plan0_eq, by decide +kernel, ?_, ?_⟩
  · unfold Plan.posts; rw [Demo.post0]
  · obtain ⟨F, known, here, root, L, hF, hk, hr, _⟩ := plan_ok Demo.plan0_eq
    rcases resumeFrom_ok hr with ⟨_, h2, h3⟩ | ⟨h, _⟩
    · rw [hr, h3]
    · cases h

end Backpak.C13
