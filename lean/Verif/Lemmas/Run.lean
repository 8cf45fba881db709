import Verif.Lemmas.Formed
import Verif.Model.Backup
import Verif.Props.C14

/-!
# A live run that adds to a repository in good order
-/

namespace Backpak

open Spec Pipeline

variable {Id : Type} [LinearOrder Id] {C : Codec Id}

/-- The work-in-progress index lists no more than the indexer holds. -/
theorem wip_sub {c : Cfg Id} {w : World Id} {main : List (Op Id)} {s : State Id}
    (h : Reachable c w main s) : ∀ x, s.world.cwd.wip = some x →
      w.cwd.wip = some x ∨ s.ix = .dead ∨ ∀ e ∈ x.packs, e ∈ idxPacks s.ix := by
  induction h with
  | refl => exact fun x hx => .inl hx
  | @tail s t h hstep ih =>
    intro x hx
    cases hstep with
    | ixPersist y hi _ =>
      simp only [Option.some.injEq] at hx
      subst hx
      exact .inr (.inr (fun e he => he))
    | ixPersistLast y hi =>
      simp only [Option.some.injEq] at hx
      subst hx
      exact .inr (.inr (fun e he => he))
    | join _ _ _ _ _ _ _ => cases hx
    | packerDup _ _ _ _ _ _ _ _ => exact .inr (.inl rfl)
    | packerIdx k id bs y hk hsp hi hn =>
      rcases ih x hx with h1 | h1 | h1
      · exact .inl h1
      · rw [hi] at h1; cases h1
      · refine .inr (.inr (fun e he => ?_))
        have h2 := h1 e he
        rw [hi] at h2
        have h3 : e ∈ (addPack y id bs).packs :=
          (insert_perm hn).symm.subset (List.mem_cons_of_mem _ h2)
        simp only
        split
        · exact h3
        · exact h3
    | ixEmpty y hi _ _ _ he =>
      rcases ih x hx with h1 | h1 | h1
      · exact .inl h1
      · rw [hi] at h1; cases h1
      · refine .inr (.inr (fun e hx => ?_))
        have h2 := h1 e hx
        rw [hi] at h2
        simp only [Index.isEmpty, Bool.and_eq_true, List.isEmpty_iff] at he
        simp only [idxPacks, IndexerState.idx, he.2] at h2
        cases h2
    | ixClosed y hi _ _ _ _ =>
      rcases ih x hx with h1 | h1 | h1
      · exact .inl h1
      · rw [hi] at h1; cases h1
      · refine .inr (.inr (fun e hx => ?_))
        have h2 := h1 e hx
        rw [hi] at h2
        simp only
        split
        · exact h2
        · exact h2
    | ixCopy y hi =>
      rcases ih x hx with h1 | h1 | h1
      · exact .inl h1
      · rw [hi] at h1; cases h1
      · rw [hi] at h1; exact .inr (.inr h1)
    | ixUp y hi _ _ =>
      rcases ih x hx with h1 | h1 | h1
      · exact .inl h1
      · rw [hi] at h1; cases h1
      · rw [hi] at h1; exact .inr (.inr h1)
    | upDrop i _ => exact ih x (by cases i <;> exact hx)
    | upMove i _ _ => exact ih x (by cases i <;> exact hx)
    | upDiscard i _ _ => exact ih x (by cases i <;> exact hx)
    | spawn _ _ | mainUp _ _ _ _ _ _ _ | mainSend _ _ _ _ _ _ | close _ _ | endPack _ _ _ _ _ _
    | packerExit _ _ _ _ _ _ | packerUp _ _ _ _ _ _ | upStore _ _ _
    | upExit _ _ _ _ _ _ => exact ih x hx

/-- What the live indexes list: what they listed before, or what the indexer holds. -/
theorem listed_after {c : Cfg Id} {w : World Id} {main : List (Op Id)} {s : State Id}
    (hr : RunOk c w main) (hsup : Covers c.start w.repo.indexes) (hx : IndexOk c w.repo (sends main))
    (h : Reachable c w main s) {p : Id} {m : Manifest Id} (hl : Listed s.world.repo.indexes p m) :
    Listed w.repo.indexes p m ∨ (s.ix ≠ .dead ∧ (p, m) ∈ idxPacks s.ix) := by
  have hf := filed hr.live h
  by_cases hex : ∃ y, s.ix = .exited (some y)
  · obtain ⟨y, hy⟩ := hex
    by_cases hb : ∃ j z, s.up = .busy (.index j z)
    · obtain ⟨j, z, hz⟩ := hb
      rw [(hf.busy j z hz).2.2] at hl
      exact .inl hl
    · have hput := hf.put y hy (fun j z hz => hb ⟨j, z, hz⟩)
      obtain ⟨news, hn⟩ := newIndex hr h hy hput
      obtain ⟨hi1, hi2, hi3⟩ := hx y hn.writes
      rw [hput] at hl
      rcases (listed_add hr.world.isort hi2 hi1 (by rw [hn.sup]; exact hi3) (hsup.writes hn.writes) p m).mp hl with h1 | h1
      · exact .inl h1
      · exact .inr ⟨by simp [hy], by rw [hy]; exact h1⟩
  · rw [hf.notYet (fun y hy => hex ⟨y, hy⟩)] at hl
    exact .inl hl

/-- Whatever can be found after a run was listed before it, or sent. -/
theorem has_after {c : Cfg Id} {w : World Id} {main : List (Op Id)} {s : State Id}
    (hr : RunOk c w main) (hsup : Covers c.start w.repo.indexes) (hx : IndexOk c w.repo (sends main))
    (h : Reachable c w main s) {b : Blob Id} (hb : Has C s.world.repo b) :
    (∃ p m, (Listed w.repo.indexes p m ∨ (p, m) ∈ c.start.packs) ∧ Pack.entryOf b ∈ m) ∨
    b ∈ sends main := by
  obtain ⟨_, p, bs, hl, hp, hm⟩ := hb
  have he : Pack.entryOf b ∈ Pack.manifestOf bs := List.mem_map.mpr ⟨b, hm, rfl⟩
  rcases listed_after hr hsup hx h hl with h1 | ⟨hd, h1⟩
  · exact .inl ⟨p, _, .inl h1, he⟩
  · obtain ⟨news, ha⟩ := (acct hr.world hr.startSort hr.ne h).resolve_left hd
    rcases List.mem_append.mp (ha.packs.subset h1) with h2 | h2
    · exact .inl ⟨p, _, .inr h2, he⟩
    · obtain ⟨⟨q, cs⟩, h3, h4⟩ := List.mem_map.mp h2
      simp only [Prod.mk.injEq] at h4
      have hg := ha.good _ h3
      simp only [h4.1] at hg
      have := Good_unique hr.inj hg ((named hr.world h).repo _ _ hp)
      subst this
      exact .inr (ha.blobs.subset (List.mem_append_left _ (List.mem_flatMap.mpr ⟨_, h3, hm⟩)))

theorem Fresh.of_perm {L : Id → Pack Id → Prop} {ss a rest : List (Blob Id)} (h : Fresh C L ss)
    (hp : (a ++ rest).Perm ss) : Fresh C L a := by
  have hs : ∀ b ∈ a, b ∈ ss := fun b hb => hp.subset (List.mem_append_left _ hb)
  refine ⟨?_, fun b hb => h.new b (hs b hb), fun b hb => h.ne b (hs b hb),
    fun b hb => h.hashes b (hs b hb), fun b hb => h.trees b (hs b hb)⟩
  have := (hp.map Blob.id).nodup_iff.mpr h.nodup
  rw [List.map_append] at this
  exact this.of_append_left

theorem has_mono_file {R R' : Repo Id} (h : ∀ b, Has C R b → Has C R' b) {cs : List Id} {x : Bytes}
    (hf : FileHolds C R cs x) : FileHolds C R' cs x := by
  induction hf with
  | nil => exact .nil
  | cons h1 _ ih => exact .cons (h _ h1) ih

theorem has_mono_tree {R R' : Repo Id} (h : ∀ b, Has C R b → Has C R' b) {id : Id} {t : Tree Id}
    (ht : TreeAt C R id t) : TreeAt C R' id t := ⟨ht.1, ht.2.1, ht.2.2.imp (fun e => e) (h _)⟩

theorem has_mono_holds {R R' : Repo Id} (h : ∀ b, Has C R b → Has C R' b) {id : Id} {d : Dir Bytes}
    (hd : Holds C R id d) : Holds C R' id d := by
  obtain ⟨t, h1, h2⟩ := hd
  exact ⟨t, has_mono_tree h h1, h2.mono (fun _ _ => has_mono_file h) (fun _ _ => has_mono_tree h)⟩

/-- Packs that take part in a run: those here, those in the repository, and those it could form. -/
def Involved (w : World Id) (main : List (Op Id)) (a : Pack Id) : Prop :=
  (∃ p, (p, a) ∈ w.repo.packs) ∨ (∃ p, (p, a) ∈ w.cwd.packs) ∨ FormedBy main a

/-- No two packs of the run share an ID. -/
def PacksDiffer (ids : Ids Id) (w : World Id) (main : List (Op Id)) : Prop :=
  ∀ a b, Involved w main a → Involved w main b →
    ids.packId (Pack.manifestOf a) = ids.packId (Pack.manifestOf b) → a = b

/-- What the main thread does before joining. -/
def mainOf (here : List Id) (ss : List (Blob Id)) : List (Op Id) := here.map Op.up ++ ss.map Op.send

theorem sends_mainOf (here : List Id) (ss : List (Blob Id)) : sends (mainOf here ss) = ss := by
  have h2 : ∀ l : List (Blob Id), sends (l.map Op.send) = l := by
    intro l
    induction l with
    | nil => rfl
    | cons b l ih => exact congrArg (b :: ·) ih
  induction here with
  | nil => exact h2 ss
  | cons p here ih => exact ih

/-- What counts before the run. -/
def Counts (w : World Id) (p : Id) (bs : Pack Id) : Prop := LivePack w.repo p bs ∨ WipPack w p bs

theorem resumeFrom_ok {w : World Id} {start : Index Id} {here : List Id}
    (h : resumeFrom w = .ok (start, here)) :
    (w.cwd.wip = none ∧ start = Index.empty ∧ here = []) ∨
    (w.cwd.wip = some start ∧ (∀ p ∈ here, p ∈ BMap.keys w.cwd.packs) ∧
      ∀ p ∈ BMap.keys start.packs, p ∈ here ∨ p ∈ BMap.keys w.repo.packs) := by
  unfold resumeFrom at h
  cases hf : findResumable w with
  | error e => rw [hf] at h; cases h
  | ok r =>
    rw [hf] at h
    cases r with
    | none =>
      cases h
      refine .inl ⟨?_, rfl, rfl⟩
      unfold findResumable at hf
      split at hf
      · assumption
      · simp only at hf; split at hf <;> cases hf
    | some v =>
      obtain ⟨a, b⟩ := v
      cases h
      exact .inr (C14.resumes_from w _ _ hf)

/-- The system as it is. -/
def liveCfg (ids : Ids Id) (cores : Nat) (start : Index Id) : Cfg Id := ⟨ids, true, cores, start, fun _ => True⟩

section AddRun

variable {ids : Ids Id} {cores : Nat} {w : World Id} {start : Index Id} {here : List Id}
  {ss : List (Blob Id)}

theorem runOk_ne (hps : BMap.Sorted w.repo.packs) (his : BMap.Sorted w.repo.indexes)
    (hn : ∀ p bs, (p, bs) ∈ w.repo.packs → p = ids.packId (Pack.manifestOf bs)) (hL : Leftover C ids w)
    (hres : resumeFrom w = .ok (start, here)) (hf : ∀ b ∈ ss, b.data ≠ [])
    (hinj : PacksDiffer ids w (mainOf here ss)) :
    RunOk ⟨ids, true, cores, start, Involved w (mainOf here ss)⟩ w (mainOf here ss) := by
  refine ⟨rfl, hinj, ⟨fun p bs h => ⟨hL.names p bs h, .inr (.inl ⟨p, h⟩)⟩,
    fun p bs h => ⟨hn p bs h, .inl ⟨p, h⟩⟩, hps, his⟩, ?_, ?_, ?_, ?_⟩
  · intro p hp
    rcases resumeFrom_ok hres with ⟨_, rfl, _⟩ | ⟨_, _, h3⟩
    · cases hp
    · rcases h3 p hp with h | h
      · exact .inr (List.mem_append_left _ (List.mem_map.mpr ⟨p, h, rfl⟩))
      · exact .inl h
  · rcases resumeFrom_ok hres with ⟨_, rfl, _⟩ | ⟨h1, _, _⟩
    · exact BMap.sorted_nil
    · exact hL.sorted _ h1
  · intro p m hm
    rcases resumeFrom_ok hres with ⟨_, rfl, _⟩ | ⟨h1, _, _⟩
    · cases hm
    · obtain ⟨bs, hb, rfl⟩ := hL.there _ _ _ h1 hm
      refine ⟨bs, ?_, rfl⟩
      rcases hb with hb | hb
      · exact ⟨hL.names _ _ hb, .inr (.inl ⟨_, hb⟩)⟩
      · exact ⟨hn _ _ hb, .inl ⟨_, hb⟩⟩
  · rw [sends_mainOf]; exact hf

theorem runOk_add (hH : Sound C w.repo)
    (hn : ∀ p bs, (p, bs) ∈ w.repo.packs → p = ids.packId (Pack.manifestOf bs)) (hL : Leftover C ids w)
    (hres : resumeFrom w = .ok (start, here)) (hf : Fresh C (Counts w) ss)
    (hinj : PacksDiffer ids w (mainOf here ss)) :
    RunOk ⟨ids, true, cores, start, Involved w (mainOf here ss)⟩ w (mainOf here ss) :=
  runOk_ne hH.packs_sorted hH.indexes_sorted hn hL hres hf.ne hinj

theorem before_counts
    (hn : ∀ p bs, (p, bs) ∈ w.repo.packs → p = ids.packId (Pack.manifestOf bs)) (hL : Leftover C ids w)
    (hres : resumeFrom w = .ok (start, here)) (hinj : PacksDiffer ids w (mainOf here ss))
    {p : Id} {bs : Pack Id}
    (h : Before ⟨ids, true, cores, start, Involved w (mainOf here ss)⟩ w.repo p bs) : Counts w p bs := by
  rcases h with h | ⟨hm, hg⟩
  · exact .inl h
  · rcases resumeFrom_ok hres with ⟨_, rfl, _⟩ | ⟨h1, _, _⟩
    · cases hm
    · obtain ⟨cs, hc, he⟩ := hL.there _ _ _ h1 hm
      have hcs : Good ⟨ids, true, cores, start, Involved w (mainOf here ss)⟩ p cs := by
        rcases hc with hc | hc
        · exact ⟨hL.names _ _ hc, .inr (.inl ⟨_, hc⟩)⟩
        · exact ⟨hn _ _ hc, .inl ⟨_, hc⟩⟩
      have : bs = cs := hinj bs cs hg.2 hcs.2 (hg.1.symm.trans hcs.1)
      subst this
      exact .inr ⟨_, h1, hm, hc⟩

theorem start_sup (hL : Leftover C ids w) (hres : resumeFrom w = .ok (start, here)) :
    Covers start w.repo.indexes := by
  rcases resumeFrom_ok hres with ⟨_, rfl, _⟩ | ⟨h1, _, _⟩
  · intro i hi; cases hi
  · exact hL.sup _ h1

/-- A live run that adds fresh blobs, from a repository in good order and whatever an interrupted
backup left: at every instant the repository is in good order, nothing that could be found is
lost, the next run can start from what is left, and at the end everything sent can be found. -/
theorem add_run (hH : Healthy C ids w.repo) (hL : Leftover C ids w)
    (hres : resumeFrom w = .ok (start, here)) (hf : Fresh C (Counts w) ss)
    (hinj : PacksDiffer ids w (mainOf here ss)) (hx : IndexOk (liveCfg ids cores start) w.repo ss)
    {s : State Id} (h : Reachable (liveCfg ids cores start) w (mainOf here ss) s) :
    Healthy C ids s.world.repo ∧ Leftover C ids s.world ∧ s.world.repo.snapshots = w.repo.snapshots ∧
    (∀ b, Has C w.repo b → Has C s.world.repo b) ∧
    (s.joined = true → ∀ b, (b ∈ ss ∨ ∃ p bs, Counts w p bs ∧ b ∈ bs) → Has C s.world.repo b) := by
  have hr := runOk_add (cores := cores) hH.sound hH.pack_names hL hres hf hinj
  have h' : Reachable ⟨ids, true, cores, start, Involved w (mainOf here ss)⟩ w (mainOf here ss) s :=
    reachable_allowed (c := liveCfg ids cores start) (c' := ⟨ids, true, cores, start, Involved w (mainOf here ss)⟩)
      rfl rfl rfl rfl (fun cur hc => .inr (.inr hc)) h
  generalize hc : (⟨ids, true, cores, start, Involved w (mainOf here ss)⟩ : Cfg Id) = c at hr h'
  have hbefore : ∀ p bs, Before c w.repo p bs → Counts w p bs :=
    fun p bs hb => before_counts hH.pack_names hL hres hinj (hc ▸ hb)
  have hids : c.ids = ids := by rw [← hc]
  have hstart : c.start = start := by rw [← hc]
  have hsup : Covers c.start w.repo.indexes := by rw [hstart]; exact start_sup hL hres
  have hx' : IndexOk c w.repo (sends (mainOf here ss)) := by
    rw [sends_mainOf]
    rintro x ⟨x1, x2, news, rest, x3, x4, x5, x6⟩
    have := hx x ⟨by rw [x1, hstart]; rfl, x2, news, rest, x3,
      fun e he => ⟨by have := (x4 e he).1; rw [hids] at this; exact this, trivial⟩, x5,
      by rw [hstart] at x6; exact x6⟩
    rw [hids, hstart]
    exact this
  have hledger : Ledger C (Counts w) := hL.ledger
  have hfresh : Fresh C (Before c w.repo) (sends (mainOf here ss)) := by
    rw [sends_mainOf]
    exact ⟨hf.nodup, fun b hb p cs hp => hf.new b hb p cs (hbefore p cs hp), hf.ne, hf.hashes, hf.trees⟩
  obtain ⟨g1, g2, g3⟩ := grow hr hH.sound hsup (hledger.mono hbefore) hfresh hx' h'
  have he := effect hr h'
  have hn := named hr.world h'
  have hgood : ∀ {p bs bs'}, Good c p bs → Good c p bs' → bs = bs' := fun a b => Good_unique hr.inj a b
  -- the packs that count after the run are among those before it and the new ones
  have hcover : ∃ (news : List (Id × Pack Id)) (rest : List (Blob Id)),
      (news.flatMap Prod.snd ++ rest).Perm ss ∧ (∀ e ∈ news, Good c e.1 e.2) ∧
      (∀ e ∈ news, e.2 ≠ [] ∧ ∃ k, ∀ b ∈ e.2, b.kind = k) ∧
      (∀ p m, (Listed s.world.repo.indexes p m ∨ ∃ x, s.world.cwd.wip = some x ∧ (p, m) ∈ x.packs) →
        Listed w.repo.indexes p m ∨ (p, m) ∈ c.start.packs ∨
          ∃ bs, (p, bs) ∈ news ∧ m = Pack.manifestOf bs) := by
    have hold : ∀ x p m, w.cwd.wip = some x → (p, m) ∈ x.packs → (p, m) ∈ c.start.packs := by
      intro x p m hw hm
      rcases resumeFrom_ok hres with ⟨h1, _, _⟩ | ⟨h1, _, _⟩
      · rw [h1] at hw; cases hw
      · rw [h1] at hw; cases hw; rw [hstart]; exact hm
    have hsplit : ∀ {x : Index Id} {news : List (Id × Pack Id)} {p : Id} {m : Manifest Id},
        (x.packs.Perm (c.start.packs ++ news.map (fun e => (e.1, Pack.manifestOf e.2)))) →
        (p, m) ∈ x.packs → (p, m) ∈ c.start.packs ∨ ∃ bs, (p, bs) ∈ news ∧ m = Pack.manifestOf bs := by
      intro x news p m hp hm
      rcases List.mem_append.mp (hp.subset hm) with hm | hm
      · exact .inl hm
      · obtain ⟨⟨q, cs⟩, he, heq⟩ := List.mem_map.mp hm
        cases heq
        exact .inr ⟨cs, he, rfl⟩
    by_cases hd : s.ix = .dead
    · -- the program is exiting: the indexes are as they were
      have hlist : ∀ p m, Listed s.world.repo.indexes p m → Listed w.repo.indexes p m := by
        intro p m hl
        rcases listed_after hr hsup hx' h' hl with h1 | h1
        · exact h1
        · exact absurd hd h1.1
      cases hw : s.world.cwd.wip with
      | none =>
        refine ⟨[], ss, by simp, by simp, by simp, ?_⟩
        rintro p m (hl | ⟨x, hx, _⟩)
        · exact .inl (hlist p m hl)
        · cases hx
      | some x =>
        rcases wip_from hr h' x hw with h1 | ⟨_, _, news, rest, x3, x4, x5, x6⟩
        · refine ⟨[], ss, by simp, by simp, by simp, ?_⟩
          rintro p m (hl | ⟨y, hy, hm⟩)
          · exact .inl (hlist p m hl)
          · cases hy; exact .inr (.inl (hold _ _ _ h1 hm))
        · rw [sends_mainOf] at x3
          refine ⟨news, rest, x3, x4, x5, ?_⟩
          rintro p m (hl | ⟨y, hy, hm⟩)
          · exact .inl (hlist p m hl)
          · cases hy; exact .inr (hsplit x6 hm)
    · obtain ⟨news, ha⟩ := (acct hr.world hr.startSort hr.ne h').resolve_left hd
      have hb := ha.blobs
      rw [sends_mainOf] at hb
      refine ⟨news, _, hb, ha.good, ha.kinds, ?_⟩
      have hidx : ∀ p m, (p, m) ∈ idxPacks s.ix → (p, m) ∈ c.start.packs ∨
          ∃ bs, (p, bs) ∈ news ∧ m = Pack.manifestOf bs := by
        intro p m hm
        exact hsplit (x := ⟨[], idxPacks s.ix⟩) ha.packs hm
      rintro p m (hl | ⟨x, hw, hm⟩)
      · rcases listed_after hr hsup hx' h' hl with h1 | h1
        · exact .inl h1
        · exact .inr (hidx p m h1.2)
      · rcases wip_sub h' x hw with h1 | h1 | h1
        · exact .inr (.inl (hold _ _ _ h1 hm))
        · exact absurd h1 hd
        · exact .inr (hidx p m (h1 _ hm))
  obtain ⟨news, rest, n1, n2, n3, n4⟩ := hcover
  have hcg : ∀ p bs, Counts w p bs → Good c p bs := by
    rintro p bs (h1 | ⟨x, _, _, h1 | h1⟩)
    · exact hr.world.repo _ _ h1.2
    · exact hr.world.cwd _ _ h1
    · exact hr.world.repo _ _ h1
  have hled := hledger.add (hf.of_perm n1) (.refl _) n3 (by
    have : ∀ p bs, Counts w p bs ∨ (p, bs) ∈ news → Good c p bs := by
      rintro p bs (h1 | h1)
      · exact hcg p bs h1
      · exact n2 _ h1
    exact fun p bs bs' h1 h2 => hgood (this p bs h1) (this p bs' h2))
  have hman : ∀ p m, (Listed s.world.repo.indexes p m ∨ ∃ x, s.world.cwd.wip = some x ∧ (p, m) ∈ x.packs) →
      ∃ cs, Good c p cs ∧ m = Pack.manifestOf cs ∧ (Counts w p cs ∨ (p, cs) ∈ news) := by
    intro p m hm
    rcases n4 p m hm with h1 | h1 | ⟨cs, h1, h2⟩
    · obtain ⟨cs, h2, h3⟩ := hH.present p m h1
      subst h3
      exact ⟨cs, hr.world.repo _ _ h2, rfl, .inl (.inl ⟨h1, h2⟩)⟩
    · obtain ⟨cs, h2, h3⟩ := hr.startGood p m h1
      subst h3
      exact ⟨cs, h2, rfl, .inl (hbefore p cs (.inr ⟨h1, h2⟩))⟩
    · exact ⟨cs, n2 _ h1, h2, .inr h1⟩
  have hwips : ∀ x, s.world.cwd.wip = some x → Covers x s.world.repo.indexes ∧ BMap.Sorted x.packs := by
    have hcov : ∀ x, x.supersedes = c.start.supersedes → Covers x w.repo.indexes →
        Covers x s.world.repo.indexes := by
      intro x hs hc
      rcases he.idx with h2 | ⟨y, ns, h2⟩
      · rw [h2]; exact hc
      · rw [h2.put]
        rintro i hi z ⟨hz, hl⟩
        rcases BMap.mem_insert_of hz with ⟨rfl, _⟩ | hz
        · rw [hs] at hi
          exact absurd hi (hx' y h2.writes).2.2
        · exact hc i hi z ⟨hz, fun h => hl ((superseded_insert hr.world.isort (hx' y h2.writes).2.1 i).mpr (.inl h))⟩
    intro x hw
    rcases wip_from hr h' x hw with h1 | h1
    · have : x = start := by
        rcases resumeFrom_ok hres with ⟨h2, _, _⟩ | ⟨h2, _, _⟩
        · rw [h2] at h1; cases h1
        · rw [h2] at h1; cases h1; rfl
      exact ⟨hcov x (by rw [this, hstart]) (hL.sup x h1), hL.sorted x h1⟩
    · exact ⟨hcov x h1.sup (hsup.writes h1), h1.sorted⟩
  have hkept := Pipeline.wip hr.live
    (fun x hx p hp => by
      obtain ⟨m, hm⟩ := BMap.mem_keys_iff.mp hp
      obtain ⟨bs, hb, _⟩ := hL.there x p m hx (BMap.mem_of_get? hm)
      exact hb.imp BMap.mem_keys_of_mem BMap.mem_keys_of_mem)
    (fun p hp => by
      obtain ⟨m, hm⟩ := BMap.mem_keys_iff.mp hp
      have hm := BMap.mem_of_get? hm
      rw [hstart] at hm
      rcases resumeFrom_ok hres with ⟨_, rfl, _⟩ | ⟨h1, _, _⟩
      · cases hm
      · obtain ⟨bs, hb, _⟩ := hL.there _ p m h1 hm
        exact hb.imp BMap.mem_keys_of_mem BMap.mem_keys_of_mem) h'
  refine ⟨?_, ?_, he.snaps, g2, ?_⟩
  · refine ⟨g1.packs_sorted, g1.indexes_sorted, by rw [he.snaps]; exact hH.snapshots_sorted,
      fun p bs h1 => by rw [← hids]; exact (he.names p bs h1).1, ?_, ?_, g1.present, g1.distinct, g1.once,
      g1.one_kind, g1.hashes, g1.trees, g1.full, ?_⟩
    · intro i x h1
      rcases he.idx with h2 | ⟨y, ns, h2⟩
      · rw [h2] at h1; exact hH.index_names i x h1
      · rw [h2.put] at h1
        rcases BMap.mem_insert_of h1 with ⟨rfl, rfl⟩ | h1
        · rw [hids]
        · exact hH.index_names i x h1
    · intro i x h1
      rcases he.idx with h2 | ⟨y, ns, h2⟩
      · rw [h2] at h1; exact hH.index_packs i x h1
      · rw [h2.put] at h1
        rcases BMap.mem_insert_of h1 with ⟨_, rfl⟩ | h1
        · exact h2.sorted
        · exact hH.index_packs i x h1
    · intro i sn h1
      rw [he.snaps] at h1
      obtain ⟨d, hd⟩ := hH.readable i sn h1
      exact ⟨d, has_mono_holds g2 hd⟩
  · refine ⟨fun p bs h1 => by rw [← hids]; exact (hn.cwd p bs h1).1, fun x hw => (hwips x hw).1,
      fun x hw => (hwips x hw).2, ?_, ?_⟩
    · intro x p m hw hm
      obtain ⟨cs, hg, rfl, _⟩ := hman p m (.inr ⟨x, hw, hm⟩)
      rcases hkept.wip x hw p (BMap.mem_keys_of_mem hm) with hk | hk
      · obtain ⟨bs, hb⟩ := BMap.mem_keys_iff.mp hk
        have hb := BMap.mem_of_get? hb
        have := hgood hg (hn.cwd _ _ hb)
        subst this
        exact ⟨cs, .inl hb, rfl⟩
      · obtain ⟨bs, hb⟩ := BMap.mem_keys_iff.mp hk
        have hb := BMap.mem_of_get? hb
        have := hgood hg (hn.repo _ _ hb)
        subst this
        exact ⟨cs, .inr hb, rfl⟩
    · refine hled.mono ?_
      have key : ∀ p bs, Good c p bs → (Listed s.world.repo.indexes p (Pack.manifestOf bs) ∨
          ∃ x, s.world.cwd.wip = some x ∧ (p, Pack.manifestOf bs) ∈ x.packs) →
          Counts w p bs ∨ (p, bs) ∈ news := by
        intro p bs hg h1
        obtain ⟨cs, hc, _, h2⟩ := hman p _ h1
        rw [hgood hg hc]
        exact h2
      rintro p bs (h1 | ⟨x, hw, hm, h1 | h1⟩)
      · exact key p bs (hn.repo _ _ h1.2) (.inl h1.1)
      · exact key p bs (hn.cwd _ _ h1) (.inr ⟨x, hw, hm⟩)
      · exact key p bs (hn.repo _ _ h1) (.inr ⟨x, hw, hm⟩)
  · intro hj b hb
    rcases hb with hb | ⟨p, bs, hc, hb⟩
    · exact g3 hj b (.inl (by rw [sends_mainOf]; exact hb))
    · rcases hc with hc | ⟨x, hw, hm, hc⟩
      · exact g2 b (hH.sound.has_iff b |>.mpr ⟨p, bs, hc.1, hc.2, hb⟩)
      · have hg : Good c p bs := hcg p bs (.inr ⟨x, hw, hm, hc⟩)
        refine g3 hj b (.inr ⟨p, bs, ⟨?_, hg⟩, hb⟩)
        rcases resumeFrom_ok hres with ⟨h1, _, _⟩ | ⟨h1, _, _⟩
        · rw [h1] at hw; cases hw
        · rw [h1] at hw; cases hw; rw [hstart]; exact hm

end AddRun

end Backpak
