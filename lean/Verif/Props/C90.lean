import Verif.Lemmas.Rebuilds
import Verif.Props.C67

/-!
# C90 - Several rebuild-indexes at once

As `C67`, with any number of rebuild-indexes, each of which may read, store its index and remove those it listed while
the others do so too.
-/

namespace Backpak.C90

open Spec Pipeline Rebuilds
open Rebuilding (Tidy has_mono)
open C65 (Apart Known)
open C66 (IsBackup)
open C67 (May may_brings orderly)
open Beside (own jobs jobs_of NewApart)

variable {ι κ Id : Type} [DecidableEq ι] [DecidableEq κ] [LinearOrder Id]

section

variable {C : Codec Id} {cut : Bytes → Nat} {ids : Ids Id} {cores : Nat}
  {U : Pack Id → Prop} {X : Index Id → Prop} {S : Snapshot Id → Prop} {R0 : Repo Id} {j : Job Id}
  {a : BackupArgs} {plan : Plan Id} {m m' : Many ι κ Id}

/-- Any number of backups and rebuild-indexes take their steps in any order, or stop for good. As long as every pack
there was at first was listed, and no two backups add the same new blob, the repository is in good order at every
instant: every live index lists packs that are there, each blob in one of them, and every snapshot can be read.
What was there at first is there, every snapshot holding what it held. -/
theorem always_healthy (hU : Apart ids U X S) (hH : Healthy C ids R0) (hK : Known ids U X S R0) (hT : Tidy R0)
    (h : Many.Reachable ids (May C cut ids cores U X S R0) R0 m) (ht : Together ids X R0 m) :
    Healthy C ids m.shared.repo ∧ (∀ b, Has C R0 b → Has C m.shared.repo b) ∧
    ∀ i sn d, (i, sn) ∈ R0.snapshots → Holds C R0 sn.tree d →
      (i, sn) ∈ m.shared.repo.snapshots ∧ Holds C m.shared.repo sn.tree d := by
  obtain ⟨alone, G, T, rank, N, hi⟩ := inv hU hH hK hT may_brings h ht
  have hm : ∀ b, Has C R0 b → Has C m.shared.repo b := fun b hb => has_mono hi.core.base hi.core.listed0 hb
  exact ⟨hi.core.healthy, hm, fun i sn d h1 h2 => ⟨hi.core.snaps0 _ h1, has_mono_holds hm h2⟩⟩

/-- What each backup found when it began. -/
theorem started (hU : Apart ids U X S) (hH : Healthy C ids R0) (hK : Known ids U X S R0) (hT : Tidy R0)
    (h : Many.Reachable ids (May C cut ids cores U X S R0) R0 m) (ht : Together ids X R0 m) :
    ∀ k p, m.shared.proc k = some p → Healthy C ids p.job.w.repo := by
  induction h with
  | refl => intro k p hk; cases hk
  | @tail m1 m2 hr hs ih =>
    have ht1 := ht.back hs
    have hc := (always_healthy hU hH hK hT hr ht1).1
    have ih := ih ht1
    cases hs with
    | other m m' r hs =>
      intro k p hk
      cases hs with
      | start i j h1 h2 h3 =>
        rcases C65.upd_some hk with ⟨rfl, rfl⟩ | ⟨hne, hk⟩
        · dsimp only
          rw [h2]
          exact hc
        · exact ih k p hk
      | run i q t h1 h2 h3 =>
        rcases C65.upd_some hk with ⟨rfl, rfl⟩ | ⟨hne, hk⟩
        · exact ih k q h1
        · exact ih k p hk
      | post i q o rest h1 h2 h3 =>
        rcases C65.upd_some hk with ⟨rfl, rfl⟩ | ⟨hne, hk⟩
        · exact ih k q h1
        · exact ih k p hk
    | indexes m r k cwd => exact ih
    | packs m r k I cwd => exact ih
    | run m r k I s t left h1 hr => exact ih
    | post m r k I s x i rest h1 h2 h3 => exact ih

/-- A backup that has finished has its snapshot there, if it makes one, and it is of what was to be backed up. -/
theorem finished_holds (hU : Apart ids U X S) (hH : Healthy C ids R0) (hK : Known ids U X S R0) (hT : Tidy R0)
    (h : Many.Reachable ids (May C cut ids cores U X S R0) R0 m) (ht : Together ids X R0 m)
    {k : ι} {p : Proc Id} (hk : m.shared.proc k = some p) (hf : p.finished)
    (hb : IsBackup C cut ids cores p.job a plan) {sn : Snapshot Id} (hsn : plan.post = .ok [.putSnap sn]) :
    (ids.snapId sn, sn) ∈ m.shared.repo.snapshots ∧
    Holds C m.shared.repo sn.tree (arrange (keep a.filter a.pathOf a.fs)) := by
  obtain ⟨alone, G, T, rank, N, hi⟩ := inv hU hH hK hT may_brings h ht
  have hW := started hU hH hK hT h ht k p hk
  have hB := hb.backs (orderly hW)
  obtain ⟨r, done, e1, e2, e3, e4⟩ := (hi.runs k p hk).run
  have hA := (hi.runs k p hk).brings
  rw [hf.2, List.append_nil] at e1
  have hposts : p.job.posts = [.putSnap sn] := by
    rw [hb.job.2.2]; unfold Plan.posts; rw [hsn]
  rw [hposts] at e1
  subst e1
  have hr := hA.reach e2
  obtain ⟨_, f2, f3⟩ := grow hA.run hB.sound (c := own ids cores p.job) (covers_plain hB.sup) hB.ledger hB.fresh hB.idx hr
  rw [on_repo] at f2 f3
  have hmono : ∀ b, Has C r b → Has C m.shared.repo b := fun b hb => has_mono
    (fun e he => hi.core.packs k _ (jobs_of hk) e (by rw [e4]; exact he))
    (fun q mf hl => hi.core.listed k _ (jobs_of hk) q mf (by rw [e4]; exact hl)) hb
  refine ⟨hi.core.snaps k _ (jobs_of hk) _ ?_, hB.holds _ (fun b h1 _ => hmono b (f2 b h1))
    (fun b h1 => hmono b (f3 hf.1 b h1)) sn hsn⟩
  rw [e4]
  have hsn' := (effect hA.run hr).snaps
  rw [on_repo] at hsn'
  show _ ∈ BMap.insert (ids.snapId sn) sn r.snapshots
  rw [hsn']
  exact (BMap.mem_insert_iff hW.snapshots_sorted).mpr (.inl ⟨rfl, rfl⟩)

/-- A rebuild that has finished, or failed for want of an index to remove, has done what it is for: every pack there
was before it listed them is listed by a live index, also one that a killed backup left. No matter what the other
rebuilds store and remove, before that and after. -/
theorem rebuilt (hU : Apart ids U X S) (hH : Healthy C ids R0) (hK : Known ids U X S R0) (hT : Tidy R0)
    (h : Many.Reachable ids (May C cut ids cores U X S R0) R0 m)
    (h' : Relation.ReflTransGen (Many.Step ids (May C cut ids cores U X S R0)) m m') (ht : Together ids X R0 m') {k : κ}
    (hk : m.rbs k = .no ∨ ∃ I c, m.rbs k = .listed I c)
    (hf : (∃ x, (m'.rbs k).finished x) ∨ (m'.rbs k).failed m'.shared.repo) :
    ∀ q bs, (q, bs) ∈ m.shared.repo.packs → Listed m'.shared.repo.indexes q (Pack.manifestOf bs) := by
  obtain ⟨alone, G, T, rank, N, hi⟩ := inv hU hH hK hT may_brings (h.trans h') ht
  have hp := (path hU hH hK hT may_brings h h' ht).2
  have hF := finds hU hH hK hT may_brings h h' ht (k := k) (by
    rcases hk with hk | ⟨I, c, hk⟩
    · rw [hk]; trivial
    · rw [hk]; trivial)
  have hph := hi.phase k
  intro q bs hb
  cases hr : m'.rbs k with
  | no => rw [hr] at hf; rcases hf with ⟨x, hf⟩ | hf <;> cases hf
  | listed I c => rw [hr] at hf; rcases hf with ⟨x, hf⟩ | hf <;> cases hf
  | running I s left =>
    rw [hr] at hf hF hph
    have hs : ∃ x, s.phase = .uploaded x := by
      rcases hf with ⟨x, hf⟩ | hf
      · exact ⟨x, hf.1⟩
      · match left, hf with
        | .rmIndex i :: _, hf => exact hf.1
    obtain ⟨x, hs⟩ := hs
    have hph := hph.2
    simp only [hs] at hph
    unfold Finds at hF
    simp only [hs] at hF
    obtain ⟨mf, h1⟩ := BMap.mem_keys_iff.mp (hF q (BMap.mem_keys_of_mem hb))
    have h1 := BMap.mem_of_get? h1
    obtain ⟨bs', h2, h3⟩ := hph.2.from_packs q mf h1
    have : bs' = bs := hi.core.ledger.one q bs' bs h2 (hp _ hb)
    subst this
    rw [h3]
    exact hi.hist.listed hU hph.1 h1

/-- Whatever the others do, each rebuild can go on until it has finished, or an index that it is to remove is gone. -/
theorem goes_on (hU : Apart ids U X S) (hH : Healthy C ids R0) (hK : Known ids U X S R0) (hT : Tidy R0)
    (h : Many.Reachable ids (May C cut ids cores U X S R0) R0 m) (ht : Together ids X R0 m) (hne : R0.packs ≠ [])
    (k : κ) :
    ∃ m', Relation.ReflTransGen (Many.Step ids (May C cut ids cores U X S R0)) m m' ∧
      ((∃ x, (m'.rbs k).finished x) ∨ (m'.rbs k).failed m'.shared.repo) ∧ m'.shared.proc = m.shared.proc ∧
      ∀ l, l ≠ k → m'.rbs l = m.rbs l := by
  obtain ⟨alone, G, T, rank, N, hi⟩ := inv hU hH hK hT may_brings h ht
  obtain ⟨e, he⟩ := List.exists_mem_of_ne_nil _ hne
  have hF : Finds (· ∈ BMap.keys R0.packs) (m.rbs k) :=
    finds (m := (⟨⟨R0, fun _ => none⟩, fun _ => .no⟩ : Many ι κ Id)) hU hH hK hT may_brings .refl h ht (k := k) trivial
  obtain ⟨R', rb', x, h1, h2⟩ := hi.completes (may := May C cut ids cores U X S R0) (k := k)
    (BMap.mem_keys_of_mem (k := e.1) (v := e.2) he) hF
  refine ⟨_, h1, ?_, rfl, fun l hl => Function.update_of_ne hl ..⟩
  dsimp only
  rw [Function.update_self]
  exact h2.imp_left fun h => ⟨x, h⟩

end

/-! ## Two rebuilds and a backup -/

/-- A rebuild that nothing disturbs makes an index of all packs. -/
theorem gathered {ids : Ids Id} {R : Repo Id} (hs : BMap.Sorted R.packs) {I : List Id} (hI : I ≠ []) (cwd : Cwd Id) :
    ∃ t, Relation.ReflTransGen (Rebuild.Step ids true) ⟨⟨R, cwd⟩, BMap.keys R.packs, [], .gather ⟨I, []⟩⟩ t ∧
      t.phase = .copied ⟨I, R.packs.map fun e => (e.1, Pack.manifestOf e.2)⟩ ∧ t.world.repo = R := by
  obtain ⟨t, y, h1, h2, h3, h4, h5, h6, h7⟩ := Rebuilding.gather_run (ids := ids) (R := R) _
    ⟨⟨R, cwd⟩, BMap.keys R.packs, [], .gather ⟨I, []⟩⟩ ⟨I, []⟩ rfl rfl rfl
    BMap.sorted_nil (fun q h => h) (by simpa [BMap.keys] using hs.nodup) (.inl hI)
  refine ⟨t, h1, ?_, h3⟩
  rw [h2]
  obtain ⟨ys, yp⟩ := y
  have hs' : BMap.Sorted (R.packs.map fun e => (e.1, Pack.manifestOf e.2)) := by
    unfold BMap.Sorted BMap.keys at hs ⊢
    rw [List.map_map]
    exact hs
  have e1 : yp.Sublist (R.packs.map fun e => (e.1, Pack.manifestOf e.2)) := by
    refine sublist_of_sorted h5 hs' ?_
    rintro ⟨q, mf⟩ he
    rcases h6 q mf he with h | h | ⟨bs, h, rfl⟩
    · cases h
    · cases h
    · exact List.mem_map.mpr ⟨_, h, rfl⟩
  have e2 : (R.packs.map fun e => (e.1, Pack.manifestOf e.2)).length ≤ yp.length := by
    have := (List.subperm_of_subset hs.nodup (fun q hq => h7 q (List.mem_append_left _ hq))).length_le
    simpa [BMap.keys] using this
  cases h4
  cases e1.eq_of_length_le e2
  rfl

/-- When all it listed are there, it removes them all. -/
theorem removes {ids : Ids Id} {may : Job Id → Prop} {f : ι → Option (Proc Id)} {k : κ} {s : Rebuild.State Id}
    {x : Index Id} {I : List Id} (hs : s.phase = .uploaded x) (L : List Id) : ∀ (R : Repo Id) (r : κ → Rebuilder Id),
    r k = .running I s (L.map .rmIndex) → L.Nodup → (∀ i ∈ L, i ∈ BMap.keys R.indexes) →
    Relation.ReflTransGen (Many.Step ids may) (⟨⟨R, f⟩, r⟩ : Many ι κ Id)
      ⟨⟨(L.map Post.rmIndex).foldl (applyPost ids) R, f⟩, Function.update r k (.running I s [])⟩ := by
  induction L with
  | nil =>
    intro R r hk _ _
    have : Function.update r k (.running I s []) = r := by
      rw [show Rebuilder.running I s [] = r k from hk.symm, Function.update_eq_self]
    rw [this]
    exact .refl
  | cons i L ih =>
    intro R r hk hn hL
    obtain ⟨n1, n2⟩ := List.nodup_cons.mp hn
    have := ih (applyPost ids R (.rmIndex i)) (Function.update r k (.running I s (L.map .rmIndex)))
      (Function.update_self ..) n2 (fun l hl => BMap.keys_erase_mem.mpr
        ⟨fun h => n1 (h ▸ hl), hL l (List.mem_cons_of_mem _ hl)⟩)
    rw [Function.update_idem] at this
    exact .head (Many.Step.post ⟨R, f⟩ r k I s x i _ hk hs (hL i List.mem_cons_self)) this

/-- The indexes: of backups, of a rebuild of `C27.repo2`, and of one once `C65.args3` is backed up. -/
def X (x : Index ObjectId) : Prop :=
  (x.supersedes = [] ∨ x.supersedes = BMap.keys C27.repo2.indexes ∨ x.supersedes = BMap.keys C67.repo4.indexes) ∧
    x.packs.Sublist C66.entries

theorem indexes_inj : ((C66.entries.sublists'.flatMap fun ps =>
    [(⟨[], ps⟩ : Index ObjectId), ⟨BMap.keys C27.repo2.indexes, ps⟩, ⟨BMap.keys C67.repo4.indexes, ps⟩]).map
      C27.fullIds.indexId).Nodup := by
  decide +kernel

theorem apart : Apart C27.fullIds C66.U X C66.S := by
  refine ⟨C66.apart.packs, ?_, C66.apart.snaps⟩
  have hm : ∀ x, X x → x ∈ C66.entries.sublists'.flatMap fun ps =>
      [(⟨[], ps⟩ : Index ObjectId), ⟨BMap.keys C27.repo2.indexes, ps⟩, ⟨BMap.keys C67.repo4.indexes, ps⟩] := by
    rintro ⟨xs, xp⟩ ⟨h1, h2⟩
    refine List.mem_flatMap.mpr ⟨xp, List.mem_sublists'.mpr h2, ?_⟩
    rcases h1 with h1 | h1 | h1
    · cases h1; exact List.mem_cons_self
    · cases h1; exact List.mem_cons_of_mem _ List.mem_cons_self
    · cases h1; exact List.mem_cons_of_mem _ (List.mem_cons_of_mem _ List.mem_cons_self)
  exact fun x y hx hy he => List.inj_on_of_nodup_map indexes_inj (hm x hx) (hm y hy) he

theorem X_of (x : Index ObjectId) (h : C67.X x) : X x := ⟨h.1.imp_right .inl, h.2⟩

theorem known2 : Known C27.fullIds C66.U X C66.S C27.repo2 :=
  ⟨C67.known2.packs, fun i x h => (C67.known2.indexes i x h).imp_right (X_of x), C67.known2.snaps⟩

/-- What may start. -/
abbrev Can : Job ObjectId → Prop := May Demo.codec Demo.cut C27.fullIds 4 C66.U X C66.S C27.repo2

theorem can3 : Can (C66.jobIn C27.repo2 C65.args3) :=
  ⟨C67.can3.kind, C67.can3.safe, C67.can3.packs, fun x hx => X_of x (C67.can3.indexes x hx), C67.can3.snaps⟩

/-- What the later rebuild stores. -/
def index4 : Index ObjectId := ⟨BMap.keys C67.repo4.indexes, C67.repo4.packs.map fun e => (e.1, Pack.manifestOf e.2)⟩

/-- The repository when the later rebuild has finished. -/
def repo6 : Repo ObjectId := ((BMap.keys C67.repo4.indexes).map Post.rmIndex).foldl (applyPost C27.fullIds)
  (putItem C67.repo4 (.index (C27.fullIds.indexId index4) index4))

/-- The repository when the earlier one has stored its index as well. -/
def repo7 : Repo ObjectId := putItem repo6 (.index (C27.fullIds.indexId C67.index2) C67.index2)

theorem gone7 : ∀ i ∈ BMap.keys C27.repo2.indexes, i ∉ BMap.keys repo7.indexes := by decide +kernel

theorem some6 : BMap.keys C67.repo4.indexes ≠ [] ∧ (BMap.keys C67.repo4.indexes).Nodup ∧
    ∀ i ∈ BMap.keys C67.repo4.indexes,
      i ∈ BMap.keys (putItem C67.repo4 (.index (C27.fullIds.indexId index4) index4)).indexes := by decide +kernel

theorem inX : X C67.index2 ∧ X index4 := by
  refine ⟨⟨.inr (.inl rfl), ?_⟩, .inr (.inr rfl), ?_⟩
  · refine sublist_of_sorted C67.sorted2.2 (BMap.sorted_ofList _) ?_
    have h : ∀ e ∈ C67.index2.packs, e ∈ C66.entries := by decide +kernel
    exact h
  · have hs : BMap.Sorted index4.packs := by unfold BMap.Sorted; decide +kernel
    refine sublist_of_sorted hs (BMap.sorted_ofList _) ?_
    intro e he
    obtain ⟨e', h1, rfl⟩ := List.mem_map.mp he
    exact C67.packs4 e' h1

theorem no_super (i : ObjectId) : ¬ Superseded C27.repo2.indexes i := by
  rintro ⟨k, z, g1, g2⟩
  rw [C66.no_super _ g1] at g2
  cases g2

/-- One rebuild lists the indexes and the packs and reads them all; a backup starts and finishes; another rebuild
starts and finishes, and removes what the first has listed; the first stores its index and then fails, for what it is
to remove is gone. Nothing is wrong with the repository, and what the backup stored is listed. -/
theorem second_fails : ∃ (m : Many Unit Bool ObjectId) (p : Proc ObjectId) (x : Index ObjectId),
    Many.Reachable C27.fullIds Can C27.repo2 m ∧ Together C27.fullIds X C27.repo2 m ∧ (m.rbs true).finished x ∧
    (m.rbs false).failed m.shared.repo ∧
    m.shared.proc () = some p ∧ p.job = C66.jobIn C27.repo2 C65.args3 ∧ p.finished := by
  let j := C66.jobIn C27.repo2 C65.args3
  let f1 : Unit → Option (Proc ObjectId) := Function.update (fun _ => none) () (some ⟨j, init j.c j.w j.main, j.posts⟩)
  have s1 : Shared.Step Can ⟨C27.repo2, fun _ => none⟩ ⟨C27.repo2, f1⟩ :=
    Shared.Step.start ⟨C27.repo2, fun _ => none⟩ () j rfl rfl can3
  obtain ⟨p, p1, p2, s2⟩ := lift_finished (may := Can) (m := ⟨C27.repo2, f1⟩) (i := ()) (j := j)
    (w' := Demo.clean C67.repo4) rfl (C27.ends (by decide +kernel))
  have up : ∀ {a b : Shared Unit ObjectId} (r : Bool → Rebuilder ObjectId), Relation.ReflTransGen (Shared.Step Can) a b →
      Relation.ReflTransGen (Many.Step C27.fullIds Can) ⟨a, r⟩ ⟨b, r⟩ := by
    intro a b r h
    induction h with
    | refl => exact .refl
    | tail _ hs ih => exact ih.tail (.other _ _ r hs)
  have flow : ∀ (R : Repo ObjectId) (f : Unit → Option (Proc ObjectId)) (r : Bool → Rebuilder ObjectId) (k : Bool) (I : List ObjectId) (s t : Rebuild.State ObjectId)
      (left : List (Post ObjectId)), r k = .running I s left → s.world.repo = R →
      Relation.ReflTransGen (Rebuild.Step C27.fullIds true) s t → t.world.repo = R →
      ∃ u : Rebuild.State ObjectId, u.phase = t.phase ∧ Relation.ReflTransGen (Many.Step C27.fullIds Can)
        (⟨⟨R, f⟩, r⟩ : Many Unit Bool ObjectId) ⟨⟨R, f⟩, Function.update r k (.running I u left)⟩ := by
    intro R f r k I s t left hk hR hst hRt
    subst hR
    obtain ⟨u, hu, h⟩ := lift_rebuild (ι := Unit) (may := Can) (m := ⟨s.world.repo, f⟩) hk hst
    rw [hRt] at h
    exact ⟨u, hu, h⟩
  -- the earlier rebuild
  let I := BMap.keys C27.repo2.indexes
  let r0 : Bool → Rebuilder ObjectId := fun _ => .no
  have t1 := Many.Step.indexes (ids := C27.fullIds) (may := Can) (⟨C27.repo2, fun _ => none⟩ : Shared Unit ObjectId) r0 false
    ⟨none, [], []⟩ rfl
  have t2 := Many.Step.packs (ids := C27.fullIds) (may := Can) (⟨C27.repo2, fun _ => none⟩ : Shared Unit ObjectId)
    (Function.update r0 false (.listed I ⟨none, [], []⟩)) false I ⟨none, [], []⟩ (Function.update_self ..)
  rw [Function.update_idem] at t2
  obtain ⟨a, a1, a2, a3⟩ := gathered (ids := C27.fullIds) C67.sorted2.1 C67.some4 ⟨none, [], []⟩
  obtain ⟨u, u1, t3⟩ := flow C27.repo2 (fun _ => none) _ false I _ a (I.map .rmIndex)
    (Function.update_self (f := r0) ..) rfl a1 a3
  rw [Function.update_idem] at t3
  -- the backup
  have t4 := up (Function.update r0 false (.running I u (I.map .rmIndex))) (.head s1 s2)
  -- the later rebuild
  let r1 := Function.update r0 false (.running I u (I.map .rmIndex))
  let f2 := Function.update f1 () (some p)
  let K := BMap.keys C67.repo4.indexes
  have t5 := Many.Step.indexes (ids := C27.fullIds) (may := Can) (⟨C67.repo4, f2⟩ : Shared Unit ObjectId) r1 true
    ⟨none, [], []⟩ rfl
  have t6 := Many.Step.packs (ids := C27.fullIds) (may := Can) (⟨C67.repo4, f2⟩ : Shared Unit ObjectId)
    (Function.update r1 true (.listed K ⟨none, [], []⟩)) true K ⟨none, [], []⟩ (Function.update_self ..)
  rw [Function.update_idem] at t6
  obtain ⟨b, b1, b2, b3⟩ := gathered (ids := C27.fullIds) C67.sorted4 some6.1 ⟨none, [], []⟩
  obtain ⟨v, v1, t7⟩ := flow C67.repo4 f2 _ true K _ b (K.map .rmIndex)
    (Function.update_self (f := r1) ..) rfl b1 b3
  rw [Function.update_idem] at t7
  let v' : Rebuild.State ObjectId := { onRepo v C67.repo4 with
    world := ⟨putItem C67.repo4 (.index (C27.fullIds.indexId index4) index4),
      dropItem v.world.cwd (.index (C27.fullIds.indexId index4) index4)⟩, phase := .uploaded index4 }
  have t8 := Many.Step.run (ids := C27.fullIds) (may := Can) (⟨C67.repo4, f2⟩ : Shared Unit ObjectId)
    (Function.update r1 true (.running K v (K.map .rmIndex))) true K v v' _ (Function.update_self ..)
    (.move (onRepo v C67.repo4) index4 (v1.trans b2) rfl)
  rw [Function.update_idem] at t8
  have t9 := removes (ids := C27.fullIds) (may := Can) (f := f2) (k := true) (s := v') (x := index4) (I := K) rfl K
    (putItem C67.repo4 (.index (C27.fullIds.indexId index4) index4)) _ (Function.update_self (f := r1) ..) some6.2.1 some6.2.2
  rw [Function.update_idem] at t9
  -- the earlier one stores its index
  have t10 := Many.Step.run (ids := C27.fullIds) (may := Can) (⟨repo6, f2⟩ : Shared Unit ObjectId)
    (Function.update r1 true (.running K v' [])) false I u _ (I.map .rmIndex) rfl (.move (onRepo u repo6) C67.index2 (u1.trans a2) rfl)
  refine ⟨_, p, index4, (((((((((Relation.ReflTransGen.single t1).tail t2).trans t3).trans t4).tail t5).tail t6).trans t7).tail
    t8).trans t9).tail t10, ⟨?_, ?_⟩, ⟨rfl, rfl⟩, ?_, rfl, p1, p2⟩
  · rintro ⟨⟩ ⟨⟩ _ _ _ _ hne
    exact absurd rfl hne
  · intro k x hx
    cases k with
    | true => cases hx; exact ⟨inX.2, no_super _⟩
    | false => cases hx; exact ⟨inX.1, no_super _⟩
  · have hI : ∃ i L, I = i :: L := List.exists_cons_of_ne_nil C67.some4
    obtain ⟨i, L, hI⟩ := hI
    have : i ∉ BMap.keys repo7.indexes := gone7 i (by show i ∈ I; rw [hI]; exact List.mem_cons_self)
    dsimp only
    rw [Function.update_self, hI]
    exact ⟨⟨_, rfl⟩, this⟩

/-- All the theorems apply. -/
example : ∃ (m : Many Unit Bool ObjectId) (p : Proc ObjectId) (x : Index ObjectId) (sn : Snapshot ObjectId),
    Many.Reachable C27.fullIds Can C27.repo2 m ∧ (m.rbs true).finished x ∧ (m.rbs false).failed m.shared.repo ∧
    m.shared.proc () = some p ∧ p.finished ∧
    Healthy Demo.codec C27.fullIds m.shared.repo ∧
    (∀ q bs, (q, bs) ∈ C27.repo2.packs → Listed m.shared.repo.indexes q (Pack.manifestOf bs)) ∧
    (C27.fullIds.snapId sn, sn) ∈ m.shared.repo.snapshots ∧
    Holds Demo.codec m.shared.repo sn.tree (arrange (keep C65.args3.filter C65.args3.pathOf C65.args3.fs)) := by
  obtain ⟨m, p, x, h1, h2, h3, h4, h5, h6, h7⟩ := second_fails
  have hsn : (C66.planIn C27.repo2 C65.args3).post = .ok [.putSnap (C66.snapOf (C66.planIn C27.repo2 C65.args3))] := by
    decide +kernel
  have hb : IsBackup Demo.codec Demo.cut C27.fullIds 4 p.job C65.args3 (C66.planIn C27.repo2 C65.args3) := by
    rw [h6]; exact C66.good3.backup
  obtain ⟨g1, g2⟩ := finished_holds apart C27.healthy2 known2 C67.tidy2 h1 h2 h5 h7 hb hsn
  exact ⟨m, p, x, _, h1, h3, h4, h5, h7, (always_healthy apart C27.healthy2 known2 C67.tidy2 h1 h2).1,
    rebuilt (m := (⟨⟨C27.repo2, fun _ => none⟩, fun _ => .no⟩ : Many Unit Bool ObjectId)) apart C27.healthy2 known2
      C67.tidy2 .refl h1 h2 (k := false) (.inl rfl) (.inr h4), g1, g2⟩

end Backpak.C90
