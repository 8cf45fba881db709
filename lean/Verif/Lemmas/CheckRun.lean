import Verif.Lemmas.Check
import Verif.Lemmas.Replace
import Verif.Lemmas.Finish

/-!
# Deciding things about a given run

For examples only: a run that starts from an index listing packs of the repository, uploads
nothing first, and sends given blobs.
-/

namespace Backpak.Check

open Spec Pipeline

variable {Id : Type} [LinearOrder Id] {C : Codec Id} {ids : Ids Id} {cores : Nat} {w : World Id}
  {start : Index Id} {ss : List (Blob Id)}

omit [LinearOrder Id] in
theorem _root_.Backpak.liveCfg_ids : (liveCfg ids cores start).ids = ids := rfl

/-- What can be decided about such a run. -/
def run (C : Codec Id) (ids : Ids Id) (w : World Id) (start : Index Id) (ss : List (Blob Id)) : Bool :=
  packsDiffer ids w (mainOf [] ss) &&
  w.cwd.packs.all (fun e => decide (e.1 = ids.packId (Pack.manifestOf e.2))) &&
  decide ((BMap.keys start.packs).Pairwise (· < ·)) &&
  start.packs.all (fun e => decide (e ∈ listed w.repo)) &&
  decide (ss.map Blob.id).Nodup &&
  ss.all (fun b => start.packs.all (fun e => e.2.all (fun a => decide (a.id ≠ b.id)))) &&
  ss.all (okBlob C)

/-- The system with packs bounded by what the run involves. -/
def cfgOf (ids : Ids Id) (cores : Nat) (w : World Id) (start : Index Id) (ss : List (Blob Id)) : Cfg Id :=
  ⟨ids, true, cores, start, Involved w (mainOf [] ss)⟩

theorem run_reachable {s : State Id} (hs : Reachable (liveCfg ids cores start) w (mainOf [] ss) s) :
    Reachable (cfgOf ids cores w start ss) w (mainOf [] ss) s :=
  reachable_allowed (c := liveCfg ids cores start) (c' := cfgOf ids cores w start ss)
    rfl rfl rfl rfl (fun cur hc => .inr (.inr hc)) hs

theorem run_sound (hH : Healthy C ids w.repo) (h : run C ids w start ss = true) :
    RunOk (cfgOf ids cores w start ss) w (mainOf [] ss) ∧
    (∀ p bs, StartPack (cfgOf ids cores w start ss) p bs → LivePack w.repo p bs) ∧
    Ledger C (StartPack (cfgOf ids cores w start ss)) ∧
    Fresh C (StartPack (cfgOf ids cores w start ss)) (sends (mainOf [] ss)) := by
  simp only [run, Bool.and_eq_true, decide_eq_true_eq, List.all_eq_true] at h
  obtain ⟨⟨⟨⟨⟨⟨h1, h2⟩, h3⟩, h4⟩, h5⟩, h6⟩, h7⟩ := h
  have hinj : PackInj (cfgOf ids cores w start ss) := packsDiffer_sound h1
  have hgood : ∀ p bs, (p, bs) ∈ w.repo.packs → Good (cfgOf ids cores w start ss) p bs :=
    fun p bs hb => ⟨hH.pack_names p bs hb, .inl ⟨p, hb⟩⟩
  have hlist : ∀ p m, (p, m) ∈ start.packs → Listed w.repo.indexes p m :=
    fun p m hm => mem_listed.mp (h4 _ hm)
  have hsl : ∀ p bs, StartPack (cfgOf ids cores w start ss) p bs → LivePack w.repo p bs := by
    rintro p bs ⟨a, b⟩
    have hl := hlist p _ a
    obtain ⟨cs, hcs, _⟩ := hH.present p _ hl
    have := Good_unique hinj b (hgood p cs hcs)
    subst this
    exact ⟨hl, hcs⟩
  refine ⟨⟨rfl, hinj, ⟨?_, hgood, hH.packs_sorted, hH.indexes_sorted⟩, ?_, h3, ?_, ?_⟩, hsl,
    hH.sound.ledger.mono hsl, ?_⟩
  · exact fun p bs hb => ⟨h2 _ hb, .inr (.inl ⟨p, hb⟩)⟩
  · intro p hp
    obtain ⟨m, hm⟩ := BMap.mem_keys_iff.mp hp
    obtain ⟨bs, hb, _⟩ := hH.present p m (hlist p m (BMap.mem_of_get? hm))
    exact .inl (BMap.mem_keys_of_mem hb)
  · intro p m hm
    obtain ⟨bs, hb, rfl⟩ := hH.present p m (hlist p m hm)
    exact ⟨bs, hgood p bs hb, rfl⟩
  · rw [sends_mainOf]
    exact fun b hb => (okBlob_sound (h7 b hb)).2.1
  · rw [sends_mainOf]
    refine ⟨h5, ?_, fun b hb => (okBlob_sound (h7 b hb)).2.1, fun b hb => (okBlob_sound (h7 b hb)).1,
      fun b hb => (okBlob_sound (h7 b hb)).2.2⟩
    intro b hb p cs hc b' hb'
    exact h6 b hb _ hc.1 _ (List.mem_map.mpr ⟨b', hb', rfl⟩)

/-- The blobs the run keeps and sends. -/
def pool (w : World Id) (start : Index Id) (ss : List (Blob Id)) : List (Blob Id) :=
  ss ++ (w.repo.packs.filter (fun e => decide ((e.1, Pack.manifestOf e.2) ∈ start.packs))).flatMap Prod.snd

/-- Such a run can finish. -/
theorem run_finishes (hH : Healthy C ids w.repo) (h : run C ids w start ss = true) (hcores : 4 ≤ cores) :
    ∃ t, Reachable (liveCfg ids cores start) w (mainOf [] ss) t ∧ t.joined = true := by
  obtain ⟨h1, _, _, h4⟩ := run_sound (cores := cores) hH h
  rw [sends_mainOf] at h4
  obtain ⟨⟨t, ht, hj⟩, _⟩ := C16.finishes_partial (cfgOf ids cores w start ss) w [] ss
    (init (cfgOf ids cores w start ss) w (mainOf [] ss)) hcores (by
      refine ⟨h1.world, .nil, by simp, h1.startSort, h4.ne, h4.nodup.of_map _, ?_, ?_, h1.inj⟩
      · intro p m hm
        obtain ⟨bs, hg, rfl⟩ := h1.startGood p m hm
        exact ⟨bs, hg, rfl, fun b hb hbs => h4.new b hb p bs ⟨hm, hg⟩ b hbs rfl⟩
      · exact fun bs hb => .inr (.inr hb)) .refl
  refine ⟨t, ?_, hj⟩
  clear hj
  have key : ∀ t, Relation.ReflTransGen (Step (cfgOf ids cores w start ss))
      (init (cfgOf ids cores w start ss) w (mainOf [] ss)) t →
      Relation.ReflTransGen (Step (liveCfg ids cores start)) (init (liveCfg ids cores start) w (mainOf [] ss)) t := by
    intro t ht
    induction ht with
    | refl => exact .refl
    | tail _ hs ih => exact ih.tail (step_allowed hs)
  exact key t ht

/-- The packs there at any time are those there before and those it formed. -/
theorem run_packs (hH : Healthy C ids w.repo) (h : run C ids w start ss = true) {s : State Id}
    (hs : Reachable (liveCfg ids cores start) w (mainOf [] ss) s) :
    ∀ p bs, (p, bs) ∈ s.world.repo.packs → p = ids.packId (Pack.manifestOf bs) ∧
      bs ∈ involved w (mainOf [] ss) := by
  obtain ⟨h1, _⟩ := run_sound (cores := cores) hH h
  intro p bs hb
  have := (named h1.world (run_reachable hs)).repo p bs hb
  exact ⟨this.1, mem_involved this.2⟩

/-- When its uploader is done, an index that supersedes all others is there, and what can be found
is what the run started from and sent. -/
theorem run_replaced (hH : Healthy C ids w.repo) (h : run C ids w start ss = true)
    (hsup : start.supersedes = BMap.keys w.repo.indexes) (hne : start.supersedes ≠ [])
    (hx : IndexNew (liveCfg ids cores start) w.repo ss) {s : State Id}
    (hs : Reachable (liveCfg ids cores start) w (mainOf [] ss) s) (hup : s.up = .exited) :
    s.world.repo.snapshots = w.repo.snapshots ∧ Sound C s.world.repo ∧
    ∃ x, Sole s.world.repo (ids.indexId x) x ∧ Writes (cfgOf ids cores w start ss) ss x ∧
      ∀ b, Has C s.world.repo b → b ∈ pool w start ss := by
  obtain ⟨h1, h2, h3, h4⟩ := run_sound (cores := cores) hH h
  have hs' := run_reachable hs
  have hx' : IndexNew (cfgOf ids cores w start ss) w.repo (sends (mainOf [] ss)) := by
    rw [sends_mainOf]
    rintro x ⟨x1, x2, news, rest, x3, x4, x5, x6⟩
    exact hx x ⟨x1, x2, news, rest, x3, fun e he => ⟨(x4 e he).1, trivial⟩, x5, x6⟩
  refine ⟨(effect h1 hs').snaps, ?_⟩
  rcases effect_exited h1 hs' hup with ⟨h5, _⟩ | ⟨x, news, h5⟩
  · simp only [Index.isEmpty, Bool.and_eq_true, List.isEmpty_iff] at h5
    exact absurd h5.1 hne
  · rcases replace h1 hH.sound hsup h3 h4 hx' hs' with ⟨h6, _⟩ | ⟨y, news', h6, h7, h8, h9⟩
    · exfalso
      refine (hx' x h5.writes).1 ?_
      rw [← h6, h5.put]
      exact BMap.keys_insert_mem.mpr (.inl rfl)
    · have hwr := h6.writes
      rw [sends_mainOf] at hwr
      refine ⟨h7, y, h8, hwr, ?_⟩
      intro b hb
      rcases (h9 b).mp hb with h10 | ⟨p, bs, h10, h11⟩
      · exact List.mem_append_left _ (by rwa [sends_mainOf] at h10)
      · exact List.mem_append_right _ (List.mem_flatMap.mpr ⟨(p, bs),
          List.mem_filter.mpr ⟨(h2 p bs h10).2, decide_eq_true h10.1⟩, h11⟩)

/-- Operations that remove indexes that were there before, and packs that the run cannot list. -/
def trims (w : World Id) (start : Index Id) (ss : List (Blob Id)) (o : Post Id) : Bool :=
  match o with
  | .putSnap _ => false
  | .rmIndex j => decide (j ∈ BMap.keys w.repo.indexes)
  | .rmPack p => decide (p ∉ BMap.keys start.packs) &&
      w.repo.packs.any (fun e => decide (e.1 = p) && e.2.any (fun b => decide (b ∉ ss)))

/-- The same after such operations. -/
theorem run_trimmed (hH : Healthy C ids w.repo) (h : run C ids w start ss = true)
    (hsup : start.supersedes = BMap.keys w.repo.indexes) (hne : start.supersedes ≠ [])
    (hx : IndexNew (liveCfg ids cores start) w.repo ss) {s : State Id}
    (hs : Reachable (liveCfg ids cores start) w (mainOf [] ss) s) (hup : s.up = .exited)
    {ops : List (Post Id)} (ho : ops.all (trims w start ss) = true) :
    (ops.foldl (applyPost ids) s.world.repo).snapshots = w.repo.snapshots ∧
    ∀ b, Has C (ops.foldl (applyPost ids) s.world.repo) b → b ∈ pool w start ss := by
  obtain ⟨h1, h2, x, h3, h4, h5⟩ := run_replaced hH h hsup hne hx hs hup
  obtain ⟨hr, _⟩ := run_sound (cores := cores) hH h
  have ht := trim_all ids h2 h3 ops (by
    intro o hm
    have := List.all_eq_true.mp ho o hm
    obtain ⟨x1, x2, news, rest, x3, x4, x5, x6⟩ := h4
    cases o with
    | putSnap sn => cases this
    | rmIndex j =>
      refine .inl ⟨j, rfl, ?_⟩
      rintro rfl
      exact (hx x ⟨x1, x2, news, rest, x3, fun e he => ⟨(x4 e he).1, trivial⟩, x5, x6⟩).1
        (of_decide_eq_true this)
    | rmPack p =>
      simp only [trims, Bool.and_eq_true, decide_eq_true_eq, List.any_eq_true] at this
      obtain ⟨h6, ⟨q, bs⟩, h7, rfl, b, h8, h9⟩ := this
      refine .inr ⟨q, rfl, fun hk => ?_⟩
      obtain ⟨⟨q', m⟩, hm', heq⟩ := List.mem_map.mp hk
      simp only at heq
      subst heq
      rcases List.mem_append.mp (x6.subset hm') with h10 | h10
      · exact h6 (BMap.mem_keys_of_mem h10)
      · obtain ⟨⟨q, cs⟩, h11, heq⟩ := List.mem_map.mp h10
        cases heq
        have := Good_unique hr.inj (x4 _ h11) (hr.world.repo _ _ h7)
        simp only at this
        subst this
        refine h9 (x3.subset (List.mem_append_left _ ?_))
        exact List.mem_flatMap.mpr ⟨_, h11, h8⟩)
  exact ⟨ht.snaps.trans h1, fun b hb => h5 b ((ht.has b).mp hb)⟩

end Backpak.Check
