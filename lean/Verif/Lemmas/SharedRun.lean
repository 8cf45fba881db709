import Verif.Model.Shared
import Verif.Lemmas.Shared
import Verif.Lemmas.SimpleRun
import Mathlib.Data.List.Sort
import Mathlib.Data.List.Permutation
import Mathlib.Data.List.Sublists

/-!
# Runs of several processes, and what a small one can write
-/

namespace Backpak.Pipeline

open Spec

variable {ι Id : Type} [DecidableEq ι] [LinearOrder Id]

/-- Once it has joined its threads, a pipeline does nothing. -/
theorem joined_stuck {c : Cfg Id} {s t : State Id} (hc : Ctl s) (hj : s.joined = true) (h : Step c s t) : False := by
  have hup := hc.joinedUp hj
  obtain ⟨x, hix⟩ := hc.upExit hup
  have hpk := hc.ixLate (by rw [hix]; rfl)
  have hcl := hc.exitClosed .chunk (hpk .chunk)
  have hm := hc.closedMain hcl
  have hsp := hc.joinedSpawn hj
  cases h with
  | spawn h _ => omega
  | mainUp p bs rest h => rw [hm] at h; cases h
  | mainSend b cur rest h => rw [hm] at h; cases h
  | close _ h => rw [hcl] at h; cases h
  | endPack k cur _ h => rw [hpk] at h; cases h
  | packerExit k cur _ h => rw [hpk] at h; cases h
  | packerUp k id bs h => rw [hpk] at h; cases h
  | packerIdx k id bs x h => rw [hpk] at h; cases h
  | packerDup k id bs x h => rw [hpk] at h; cases h
  | ixPersist x h => rw [hix] at h; cases h
  | ixEmpty x h => rw [hix] at h; cases h
  | ixClosed x h => rw [hix] at h; cases h
  | ixPersistLast x h => rw [hix] at h; cases h
  | ixCopy x h => rw [hix] at h; cases h
  | ixUp x h => rw [hix] at h; cases h
  | upStore i h => rw [hup] at h; cases h
  | upDrop i h => rw [hup] at h; cases h
  | upMove i h => rw [hup] at h; cases h
  | upDiscard i h => rw [hup] at h; cases h
  | upExit h => rw [hup] at h; cases h
  | join _ h => rw [hj] at h; cases h

variable {may : Job Id → Prop}

/-- A process runs while the others wait. -/
theorem lift_run {m : Shared ι Id} {i : ι} {p : Proc Id} {t : State Id} (hi : m.proc i = some p)
    (hc : Ctl (p.s.on m.repo)) (h : Relation.ReflTransGen (Step p.job.c) (p.s.on m.repo) t) :
    ∃ u : State Id, u.on t.world.repo = t ∧ Relation.ReflTransGen (Shared.Step may) m
      ⟨t.world.repo, Function.update m.proc i (some { p with s := u })⟩ := by
  induction h with
  | refl =>
    refine ⟨p.s, rfl, ?_⟩
    have : Function.update m.proc i (some { p with s := p.s }) = m.proc := by
      rw [show ({ p with s := p.s } : Proc Id) = p from rfl, ← hi, Function.update_eq_self]
    rw [on_repo, this]
  | @tail s t hs hst ih =>
    obtain ⟨u, hu, hr⟩ := ih
    have hcs : Ctl s := by
      clear hst hu hr
      induction hs with
      | refl => exact hc
      | tail _ h ih => exact ctl_step ih h
    have hj : u.joined = false := by
      cases hb : s.joined with
      | true => exact (joined_stuck hcs hb hst).elim
      | false => rw [← hu] at hb; exact hb
    refine ⟨t, rfl, hr.tail ?_⟩
    have := Shared.Step.run (may := may) (ι := ι)
      ⟨s.world.repo, Function.update m.proc i (some { p with s := u })⟩ i { p with s := u } t
      (Function.update_self ..) hj (by rw [hu]; exact hst)
    rwa [Function.update_idem] at this

/-- And does what follows the join. -/
theorem lift_posts {c : Cfg Id} (l : List (Post Id)) {R : Repo Id} {f : ι → Option (Proc Id)} {i : ι} {p : Proc Id}
    (hp : p.job.c = c) (hj : p.s.joined = true) (hl : p.left = l) :
    Relation.ReflTransGen (Shared.Step may) ⟨R, Function.update f i (some p)⟩
      ⟨l.foldl (applyPost c.ids) R, Function.update f i (some { p with left := [] })⟩ := by
  induction l generalizing R p with
  | nil =>
    have : ({ p with left := [] } : Proc Id) = p := by rw [← hl]
    rw [this]
    exact .refl
  | cons o rest ih =>
    have h1 := Shared.Step.post (may := may) (ι := ι) ⟨R, Function.update f i (some p)⟩ i p o rest
      (Function.update_self ..) hj hl
    rw [Function.update_idem, hp] at h1
    exact .head h1 (ih (p := { p with left := rest }) hp hj rfl)

/-- A process that has just started comes to its end while the others wait, and does to the repository as
it now is what it would do to one that was so from the start. -/
theorem lift_finished {m : Shared ι Id} {i : ι} {j : Job Id} {w' : World Id}
    (hi : m.proc i = some ⟨j, init j.c j.w j.main, j.posts⟩)
    (h : Finished j.c ⟨m.repo, j.w.cwd⟩ j.main j.posts w') :
    ∃ p : Proc Id, p.job = j ∧ p.finished ∧ Relation.ReflTransGen (Shared.Step may) m
      ⟨w'.repo, Function.update m.proc i (some p)⟩ := by
  cases h with
  | mk s hs hj =>
    have hon : (init j.c j.w j.main).on m.repo = init j.c ⟨m.repo, j.w.cwd⟩ j.main := rfl
    obtain ⟨u, hu, hr⟩ := lift_run (may := may) hi (by rw [hon]; exact ctl_init ..) (t := s) (by rw [hon]; exact hs)
    have hju : u.joined = true := by rw [← hu] at hj; exact hj
    exact ⟨⟨j, u, []⟩, rfl, ⟨hju, rfl⟩, hr.trans (lift_posts (c := j.c) j.posts rfl hju rfl)⟩

end Backpak.Pipeline

namespace Backpak

open Spec Pipeline

variable {Id : Type} [LinearOrder Id]

/-- Whatever packs could be made of these blobs, in any order. -/
def arrangements (ss : List (Blob Id)) : List (Pack Id) :=
  ((ofKind .chunk ss).sublists ++ (ofKind .tree ss).sublists).flatMap List.permutations'

theorem mem_arrangements {ss bs l : List (Blob Id)} {k : Kind} (h1 : l.Perm bs) (h2 : l.Sublist (ofKind k ss)) :
    bs ∈ arrangements ss := by
  refine List.mem_flatMap.mpr ⟨l, ?_, List.mem_permutations'.mpr h1.symm⟩
  cases k
  · exact List.mem_append_left _ (List.mem_sublists.mpr h2)
  · exact List.mem_append_right _ (List.mem_sublists.mpr h2)

theorem formed_arrangement {main : List (Op Id)} {bs : Pack Id} (h : FormedBy main bs) :
    bs ∈ arrangements (sends main) := by
  obtain ⟨_, k, h⟩ := h
  exact mem_arrangements (.refl _) h.sublist

/-- Ordered entries among others are a part of them. -/
theorem sublist_of_sorted {V : Type} {a b : BMap Id V} (ha : BMap.Sorted a) (hb : BMap.Sorted b)
    (h : ∀ e ∈ a, e ∈ b) : a.Sublist b := by
  have hnd : a.Nodup := List.Nodup.of_map Prod.fst ha.nodup
  have : Std.Antisymm (fun a b : Id × V => a.1 < b.1) := ⟨fun a b h h' => absurd h (lt_asymm h')⟩
  exact List.sublist_of_subperm_of_pairwise (r := fun a b : Id × V => a.1 < b.1)
    (List.subperm_of_subset hnd h) (List.pairwise_map.mp ha) (List.pairwise_map.mp hb)

/-- The entries an index may then have. -/
def entriesOf (ids : Ids Id) (l : List (Pack Id)) : BMap Id (Manifest Id) :=
  BMap.ofList (l.map fun bs => (ids.packId (Pack.manifestOf bs), Pack.manifestOf bs))

/-- What an index that a run writes may be, as a sublist of a sorted list of entries. -/
theorem writes_among {c : Cfg Id} {ss : List (Blob Id)} {x : Index Id} {E : BMap Id (Manifest Id)}
    (hst : ∀ e ∈ c.start.packs, e ∈ E) (h : Writes c ss x) (hE : BMap.Sorted E)
    (hall : ∀ bs ∈ arrangements ss, (c.ids.packId (Pack.manifestOf bs), Pack.manifestOf bs) ∈ E) :
    x.supersedes = c.start.supersedes ∧ x.packs.Sublist E := by
  obtain ⟨h1, h2, news, rest, h3, h4, h5, h6⟩ := h
  refine ⟨h1, ?_⟩
  have hsub : ∀ e ∈ x.packs, e ∈ E := by
    intro e he
    rcases List.mem_append.mp (h6.subset he) with he | he
    · exact hst e he
    obtain ⟨⟨q, bs⟩, g1, rfl⟩ := List.mem_map.mp he
    rw [(h4 _ g1).1]
    refine hall bs ?_
    obtain ⟨_, k, hk⟩ := h5 _ g1
    have g2 : bs.Subperm ss := by
      have : bs.Sublist (news.flatMap Prod.snd ++ rest) := by
        rw [List.flatMap_def]
        have hm : bs ∈ news.map Prod.snd := List.mem_map.mpr ⟨(q, bs), g1, rfl⟩
        exact (List.sublist_flatten_of_mem hm).trans (List.sublist_append_left _ _)
      exact this.subperm.trans h3.subperm
    obtain ⟨l, g3, g4⟩ := g2
    refine mem_arrangements (k := k) g3 ?_
    have : l = l.filter (fun b => b.kind = k) := by
      rw [List.filter_eq_self.mpr]
      intro b hb
      exact decide_eq_true (hk b (g3.subset hb))
    rw [this]
    exact g4.filter _
  exact sublist_of_sorted h2 hE hsub

/-- If it starts from nothing. -/
theorem writes_sublist {c : Cfg Id} {ss : List (Blob Id)} {x : Index Id} (hst : c.start = Index.empty)
    (h : Writes c ss x) {E : BMap Id (Manifest Id)} (hE : BMap.Sorted E)
    (hall : ∀ bs ∈ arrangements ss, (c.ids.packId (Pack.manifestOf bs), Pack.manifestOf bs) ∈ E) :
    x.supersedes = [] ∧ x.packs.Sublist E := by
  obtain ⟨h1, h2⟩ := writes_among (E := E) (by rw [hst]; intro e he; cases he) h hE hall
  rw [hst] at h1
  exact ⟨h1, h2⟩

end Backpak
