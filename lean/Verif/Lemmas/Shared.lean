import Verif.Model.Shared
import Verif.Lemmas.Backup

/-!
# Several processes: what each would have done alone
-/

namespace Backpak.Pipeline

open Spec

section Frame

variable {Id : Type} [LinearOrder Id]

/-- What a step puts in the repository. -/
def puts (R : Repo Id) : Option (Item Id) → Repo Id
  | none => R
  | some i => putItem R i

@[simp] theorem on_on (s : State Id) (R R' : Repo Id) : (s.on R).on R' = s.on R' := rfl
@[simp] theorem on_self (s : State Id) : s.on s.world.repo = s := rfl
@[simp] theorem on_repo (s : State Id) (R : Repo Id) : (s.on R).world.repo = R := rfl
@[simp] theorem on_joined (s : State Id) (R : Repo Id) : (s.on R).joined = s.joined := rfl

/-- A step does not depend on what is in the repository, and puts at most one thing there. -/
theorem step_frame {c : Cfg Id} {s t : State Id} (h : Step c s t) :
    ∃ o, t.world.repo = puts s.world.repo o ∧ (∀ i, o = some i → s.up = .busy i ∧ t.ix = s.ix ∧ ∀ i', t.up ≠ .busy i') ∧
      ∀ R, Step c (s.on R) (t.on (puts R o)) := by
  cases h with
  | spawn h1 h2 => exact ⟨none, rfl, by simp, fun R => .spawn (s.on R) h1 h2⟩
  | mainUp p bs rest h1 h2 h3 h4 => exact ⟨none, rfl, by simp, fun R => .mainUp (s.on R) p bs rest h1 h2 h3 h4⟩
  | mainSend b cur rest h1 h2 h3 => exact ⟨none, rfl, by simp, fun R => .mainSend (s.on R) b cur rest h1 h2 h3⟩
  | close h1 h2 => exact ⟨none, rfl, by simp, fun R => .close (s.on R) h1 h2⟩
  | endPack k cur h1 h2 h3 h4 => exact ⟨none, rfl, by simp, fun R => .endPack (s.on R) k cur h1 h2 h3 h4⟩
  | packerExit k cur h1 h2 h3 h4 => exact ⟨none, rfl, by simp, fun R => .packerExit (s.on R) k cur h1 h2 h3 h4⟩
  | packerUp k id bs h1 h2 h3 => exact ⟨none, rfl, by simp, fun R => .packerUp (s.on R) k id bs h1 h2 h3⟩
  | packerIdx k id bs x h1 h2 h3 h4 =>
    exact ⟨none, rfl, by simp, fun R => .packerIdx (s.on R) k id bs x h1 h2 h3 h4⟩
  | packerDup k id bs x h1 h2 h3 h4 =>
    exact ⟨none, rfl, by simp, fun R => .packerDup (s.on R) k id bs x h1 h2 h3 h4⟩
  | ixPersist x h1 h2 => exact ⟨none, rfl, by simp, fun R => .ixPersist (s.on R) x h1 h2⟩
  | ixEmpty x h1 h2 h3 h4 h5 => exact ⟨none, rfl, by simp, fun R => .ixEmpty (s.on R) x h1 h2 h3 h4 h5⟩
  | ixClosed x h1 h2 h3 h4 h5 => exact ⟨none, rfl, by simp, fun R => .ixClosed (s.on R) x h1 h2 h3 h4 h5⟩
  | ixPersistLast x h1 => exact ⟨none, rfl, by simp, fun R => .ixPersistLast (s.on R) x h1⟩
  | ixCopy x h1 => exact ⟨none, rfl, by simp, fun R => .ixCopy (s.on R) x h1⟩
  | ixUp x h1 h2 h3 => exact ⟨none, rfl, by simp, fun R => .ixUp (s.on R) x h1 h2 h3⟩
  | upStore i h1 h2 => exact ⟨some i, rfl, by rintro _ ⟨⟩; exact ⟨h1, rfl, by simp⟩, fun R => .upStore (s.on R) i h1 h2⟩
  | upDrop i h1 => exact ⟨none, rfl, by simp, fun R => .upDrop (s.on R) i h1⟩
  | upMove i h1 h2 => exact ⟨some i, rfl, by rintro _ ⟨⟩; exact ⟨h1, rfl, by simp⟩, fun R => .upMove (s.on R) i h1 h2⟩
  | upDiscard i h1 h2 => exact ⟨none, rfl, by simp, fun R => .upDiscard (s.on R) i h1 h2⟩
  | upExit h1 h2 h3 h4 h5 h6 => exact ⟨none, rfl, by simp, fun R => .upExit (s.on R) h1 h2 h3 h4 h5 h6⟩
  | join h1 h2 h3 h4 h5 h6 h7 => exact ⟨none, rfl, by simp, fun R => .join (s.on R) h1 h2 h3 h4 h5 h6 h7⟩

end Frame

end Backpak.Pipeline

namespace Backpak

open Spec Pipeline

variable {Id : Type} [LinearOrder Id] {C : Codec Id} {cut : Bytes → Nat} {ids : Ids Id} {cores : Nat}
  {w : World Id} {src : Source Id} {snaps : List (Snap Id)} {a : BackupArgs} {plan : Plan Id}

/-- The IDs of the blobs a run adds: those of the packs it resumes with and those it sends. -/
def adds (start : Index Id) (main : List (Op Id)) : List Id :=
  listedIds start ++ (sends main).map Blob.id

/-- What a backup adds to the repository, before the operations that follow the join. -/
structure Added (ids : Ids Id) (w : World Id) (c : Cfg Id) (main : List (Op Id)) (R : Repo Id) : Prop where
  packs : ∀ p bs, (p, bs) ∈ R.packs → p = ids.packId (Pack.manifestOf bs) ∧ Involved w main bs
  indexes : ∀ i x, (i, x) ∈ R.indexes → (i, x) ∈ w.repo.indexes ∨
    (i = ids.indexId x ∧ Writes c (sends main) x ∧ x.supersedes = [] ∧ ¬ Superseded w.repo.indexes i)
  snaps : R.snapshots = w.repo.snapshots
  keepPacks : ∀ e ∈ w.repo.packs, e ∈ R.packs
  keepIndexes : ∀ e ∈ w.repo.indexes, e ∈ R.indexes
  listed : ∀ p m, Listed R.indexes p m → Listed w.repo.indexes p m ∨ ∀ e ∈ m, e.id ∈ adds c.start main

theorem backup_added (hB : BackupOk C cut ids w src snaps a)
    (hN : NoClash C cut ids cores w src snaps a plan)
    (hp : backupPlan C cut w src snaps a = .ok plan) (hlive : a.dryRun = false)
    (hplain : plan.start.supersedes = []) {s : State Id} (h : Reachable (liveCfg ids cores plan.start) w plan.main s) :
    Added ids w (liveCfg ids cores plan.start) plan.main s.world.repo := by
  obtain ⟨F, known, here, root, L, hF, hk, hr, hb, hoff, hm, hpost⟩ := plan_ok hp
  have hu := hN.blobs
  rw [hoff] at hu
  obtain ⟨hf, _⟩ := offer_fresh hB.leftover
    (packed_iff hB.healthy.sound hB.leftover hB.opens hk hr) (offered_made hB.runs hF hb) hu
  generalize hss : (L.foldl offer ⟨BMap.keys known ++ listedIds plan.start, []⟩).sent = ss at hm hf
  have hmain : plan.main = mainOf here ss := by rw [hm, hlive]; rfl
  have hinj := hN.packs
  have hx := hN.indexes
  rw [hmain] at hinj h ⊢
  rw [hmain] at hx
  have hrun := runOk_add (cores := cores) hB.healthy.sound hB.healthy.pack_names hB.leftover hr hf hinj
  have h' : Reachable ⟨ids, true, cores, plan.start, Involved w (mainOf here ss)⟩ w (mainOf here ss) s :=
    reachable_allowed (c := liveCfg ids cores plan.start)
      (c' := ⟨ids, true, cores, plan.start, Involved w (mainOf here ss)⟩)
      rfl rfl rfl rfl (fun cur hc => .inr (.inr hc)) h
  have he := effect hrun h'
  have hsup := start_sup hB.leftover hr
  have hwr : ∀ x, Writes ⟨ids, true, cores, plan.start, Involved w (mainOf here ss)⟩ (sends (mainOf here ss)) x →
      Writes (liveCfg ids cores plan.start) (sends (mainOf here ss)) x := by
    rintro x ⟨x1, x2, news, rest, x3, x4, x5, x6⟩
    exact ⟨x1, x2, news, rest, x3, fun e he => ⟨(x4 e he).1, trivial⟩, x5, x6⟩
  have hx' : IndexOk ⟨ids, true, cores, plan.start, Involved w (mainOf here ss)⟩ w.repo (sends (mainOf here ss)) :=
    fun x hw => hx x (hwr x hw)
  refine ⟨fun p bs hb => he.names p bs hb, ?_, he.snaps, he.keep, ?_, ?_⟩
  · intro i x hi
    rcases he.idx with h1 | ⟨y, news, h1⟩
    · rw [h1] at hi; exact .inl hi
    · rw [h1.put] at hi
      rcases BMap.mem_insert_of hi with ⟨rfl, rfl⟩ | hi
      · exact .inr ⟨rfl, hwr _ h1.writes, h1.sup.trans hplain, (hx' _ h1.writes).1⟩
      · exact .inl hi
  · rintro ⟨i, x⟩ hi
    rcases he.idx with h1 | ⟨y, news, h1⟩
    · rw [h1]; exact hi
    · rw [h1.put]
      refine (BMap.mem_insert_iff hB.healthy.indexes_sorted).mpr ?_
      by_cases hiy : i = ids.indexId y
      · subst hiy
        exact .inl ⟨rfl, (hx' _ h1.writes).2.1 _ hi⟩
      · exact .inr ⟨hiy, hi⟩
  · intro p m hl
    rcases listed_after hrun hsup hx' h' hl with h1 | ⟨hd, h1⟩
    · exact .inl h1
    · refine .inr (fun e hem => ?_)
      obtain ⟨news, ha⟩ := (acct hrun.world hrun.startSort hrun.ne h').resolve_left hd
      rcases List.mem_append.mp (ha.packs.subset h1) with h2 | h2
      · exact List.mem_append_left _ (List.mem_flatMap.mpr ⟨(p, m), h2, List.mem_map.mpr ⟨e, hem, rfl⟩⟩)
      · obtain ⟨⟨q, cs⟩, h3, h4⟩ := List.mem_map.mp h2
        cases h4
        obtain ⟨b, hb, rfl⟩ := List.mem_map.mp hem
        refine List.mem_append_right _ (List.mem_map.mpr ⟨b, ?_, rfl⟩)
        exact ha.blobs.subset (List.mem_append_left _ (List.mem_flatMap.mpr ⟨_, h3, hb⟩))

end Backpak
