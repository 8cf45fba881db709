import Mathlib.Data.List.Dedup
import Verif.Model.Stores
import Verif.Props.C47
import Verif.Props.C51
import Verif.Props.C55

/-!
# C98. A repository is the same on a disk, at Backblaze and in memory

Everywhere else a repository is taken to be a table of what there is under each name, that changes by one object at
a time. Each of the three stores is such a table, also when the program is killed.
-/

namespace Backpak.C98

open Spec Stores Files

/-! ## Paths -/

theorem at_inj {k k' : Shelf} {id id' : ObjectId} (h : Stores.at_ k id = Stores.at_ k' id') : k = k' ∧ id = id' := by
  apply C50.apart
  rw [C50.placed, C50.placed]
  exact congrArg _ h

theorem at_ne {k k' : Shelf} {id id' : ObjectId} (h : ¬ (k' = k ∧ id' = id)) : Stores.at_ k' id' ≠ Stores.at_ k id :=
  fun e => h (at_inj e)

theorem at_under (k : Shelf) (id : ObjectId) : k.dir <+: Stores.at_ k id := List.prefix_append _ _

theorem under_iff {k k' : Shelf} {id : ObjectId} : k.dir <+: Stores.at_ k' id ↔ k = k' := by
  constructor
  · rintro ⟨t, h⟩
    unfold Stores.at_ at h
    have := congrArg (List.take 2) h
    revert this
    cases k <;> cases k' <;> simp [Shelf.dir, ascii]
  · rintro rfl; exact at_under _ _

theorem at_path (k : Shelf) (id : ObjectId) : C47.ObjectPath (Stores.at_ k id) := by
  obtain ⟨d, hd, _⟩ := C50.dir_eq k
  unfold Stores.at_
  rw [hd, List.append_assoc]
  exact .under d k id

/-! ## Tables by path -/

section
variable {V : Type}

theorem get_insert {m : BMap Bytes V} (h : BMap.Sorted m) (k x : Bytes) (v : V) :
    (m.insert k v).get? x = if k = x then some v else m.get? x := by
  have := BMap.get?_insert h k x v
  convert this

theorem get_erase {m : BMap Bytes V} (k x : Bytes) : (m.erase k).get? x = if k = x then none else m.get? x := by
  have := BMap.get?_erase m k x
  convert this

theorem get_iff {m : BMap Bytes V} (h : BMap.Sorted m) {k : Bytes} {v : V} : m.get? k = some v ↔ (k, v) ∈ m := by
  have := BMap.get?_eq_some_iff h (k := k) (v := v)
  convert this

theorem erase_sorted {m : BMap Bytes V} (h : BMap.Sorted m) (k : Bytes) : BMap.Sorted (m.erase k) := by
  have := BMap.sorted_erase h k
  convert this

theorem keys_erase {m : BMap Bytes V} {k x : Bytes} (h : x ∈ BMap.keys (m.erase k)) : x ∈ BMap.keys m := by
  have : x ∈ BMap.keys (@BMap.erase _ _ (fun a b => LinearOrder.toDecidableEq a b) k m) := by convert h
  exact (BMap.keys_erase_mem.mp this).2

end

/-! ## When a store holds a table -/

/-- In memory. -/
structure HoldsMemory (M : BMap Bytes Bytes) (m : Table) : Prop where
  sorted : BMap.Sorted M
  objects : ∀ p ∈ BMap.keys M, ∃ k id, p = Stores.at_ k id
  holds : ∀ k id, M.get? (Stores.at_ k id) = m k id

/-- On a disk. There may be temporary files. -/
structure HoldsDisk (fs : Fs) (m : Table) : Prop where
  links : ∀ p q i, fs.names p = some i → fs.names q = some i → p = q
  objects : ∀ (k : Shelf) p, k.dir <+: p → fs.names p ≠ none →
    Names.extension p = some (ascii "part") ∨ ∃ k id, p = Stores.at_ k id
  holds : ∀ k id, fs.get (Stores.at_ k id) = m k id

/-- At Backblaze. There may be older versions. -/
structure HoldsRemote (B : Bucket) (m : Table) : Prop where
  ids : (B.map Stored.id).Nodup
  objects : ∀ v ∈ B, ∃ k id, v.name = Stores.at_ k id
  holds : ∀ k id, B.latest (Stores.at_ k id) = m k id

/-! ## In memory -/

theorem memory_right {M M' : BMap Bytes Bytes} {m : Table} {a : Ask} {b : Answer} (h : HoldsMemory M m)
    (hd : Memory M a M' b) : ∃ m', HoldsMemory M' m' ∧ Right m a m' b ∧
      (b = .failed → ∃ k id, a = .read k id ∧ m k id = none) := by
  cases hd with
  | write k id x =>
    refine ⟨(Ask.write k id x).after m, ⟨BMap.sorted_insert h.sorted _ _, ?_, ?_⟩, ⟨rfl, .inl ⟨k, id, x, rfl⟩⟩, by simp⟩
    · intro p hp
      rcases BMap.keys_insert_mem.mp hp with rfl | hp
      · exact ⟨k, id, rfl⟩
      · exact h.objects p hp
    · intro k' id'
      rw [get_insert h.sorted]
      simp only [Ask.after]
      by_cases e : k' = k ∧ id' = id
      · rw [if_pos e, if_pos]
        rw [e.1, e.2]
      · rw [if_neg e, if_neg, h.holds]
        first | exact at_ne e | exact fun he => at_ne e he.symm
  | read k id hx => exact ⟨m, h, ⟨rfl, k, id, rfl, (h.holds k id).symm.trans hx⟩, by simp⟩
  | none k id hx => exact ⟨m, h, .inl rfl, fun _ => ⟨k, id, rfl, (h.holds k id).symm.trans hx⟩⟩
  | remove k id =>
    refine ⟨(Ask.remove k id).after m, ⟨erase_sorted h.sorted _, ?_, ?_⟩, ⟨rfl, .inr ⟨k, id, rfl⟩⟩, by simp⟩
    · intro p hp
      exact h.objects p (keys_erase hp)
    · intro k' id'
      rw [get_erase]
      simp only [Ask.after]
      by_cases e : k' = k ∧ id' = id
      · rw [if_pos e, if_pos]
        rw [e.1, e.2]
      · rw [if_neg e, if_neg, h.holds]
        first | exact at_ne e | exact fun he => at_ne e he.symm
  | list k l hl =>
    refine ⟨m, h, ⟨rfl, k, rfl, ?_, ?_⟩, by simp⟩
    · have : (((M.filter fun e => k.dir.isPrefixOf e.1).map fun e => (e.1, e.2.length)).map Prod.fst).Nodup := by
        rw [List.map_map]
        have : (BMap.keys (M.filter fun e => k.dir.isPrefixOf e.1)).Nodup :=
          (List.filter_sublist.map Prod.fst).nodup h.sorted.nodup
        exact this
      exact (hl.map Prod.fst).nodup_iff.mpr this
    · intro p n
      rw [hl.mem_iff]
      simp only [List.mem_map, List.mem_filter, List.isPrefixOf_iff_prefix, Prod.mk.injEq, Prod.exists]
      constructor
      · rintro ⟨q, x, ⟨hm, hp⟩, rfl, rfl⟩
        obtain ⟨k', id, rfl⟩ := h.objects q (BMap.mem_keys_of_mem hm)
        obtain rfl := under_iff.mp hp
        exact ⟨id, x, rfl, (h.holds k id).symm.trans ((get_iff h.sorted).mpr hm), rfl⟩
      · rintro ⟨id, x, rfl, hx, rfl⟩
        exact ⟨_, x, ⟨(get_iff h.sorted).mp ((h.holds k id).trans hx), at_under k id⟩, rfl, rfl⟩

/-! ## On a disk -/

theorem puts_ok {fs : Fs} {m : Table} {k : Shelf} {id : ObjectId} {x : Bytes} {job : Job} (h : HoldsDisk fs m)
    (hp : Puts fs k id x job) : C47.Ok (fun _ : Unit => job) fs where
  objects := fun _ => by rw [hp.dst]; exact at_path k id
  temps := fun _ => hp.temp
  apart := fun _ _ _ => rfl
  absent := fun _ => hp.absent
  source := fun _ a ha => by
    obtain ⟨h1, h2, h3⟩ := hp.source a ha
    refine ⟨by rw [hp.whole]; exact h1, fun _ e => h3 k ?_, fun _ => h2, fun _ _ => rfl⟩
    rw [e, hp.dst]
    exact at_under k id
  links := h.links

theorem temp_part {fs : Fs} {k : Shelf} {id : ObjectId} {x : Bytes} {job : Job} (hp : Puts fs k id x job) :
    Names.extension job.temp = some (ascii "part") := by
  obtain ⟨r, hr, e⟩ := hp.temp
  rw [e]
  exact C47.temp_ext (by rw [hp.dst]; exact at_path k id) hr

theorem get_none {fs : Fs} {p : Bytes} : fs.get p = none ↔ fs.names p = none := by simp [Fs.get]

/-- Whenever a program that puts something there is killed, all of it is there or nothing has changed. -/
theorem comes_right {fs : Fs} {m : Table} {k : Shelf} {id : ObjectId} {x : Bytes} {job : Job} {s : State Unit}
    (h : HoldsDisk fs m) (hp : Puts fs k id x job) (hc : Comes job fs s) :
    (HoldsDisk s.fs m ∨ HoldsDisk s.fs ((Ask.write k id x).after m)) ∧
    (s.pc () = .done → HoldsDisk s.fs ((Ask.write k id x).after m)) := by
  have hO := puts_ok h hp
  have hI := C47.inv hO hc
  have hnt : ∀ k' id', Stores.at_ k' id' ≠ job.temp := by
    intro k' id' e
    apply C47.object_ext (at_path k' id')
    rw [e]
    exact temp_part hp
  have hobj : ∀ (k' : Shelf) p, k'.dir <+: p → s.fs.names p ≠ none →
      Names.extension p = some (ascii "part") ∨ ∃ k id, p = Stores.at_ k id := by
    intro k' p hu hn
    by_cases ht : p = job.temp
    · exact .inl (ht ▸ temp_part hp)
    · rcases C47.atomic hO hc (p := p) (fun _ => ht) with e | ⟨_, e, _, _⟩ | ⟨e, _⟩
      · exact h.objects k' p hu (fun hx => hn (get_none.mp (e.trans (get_none.mpr hx))))
      · exact .inr ⟨k, id, by rw [← e, hp.dst]⟩
      · exact absurd (get_none.mp e) hn
  have hother : ∀ k' id', ¬ (k' = k ∧ id' = id) → s.fs.get (Stores.at_ k' id') = m k' id' := by
    intro k' id' hne
    rw [← h.holds]
    rcases C47.atomic hO hc (p := Stores.at_ k' id') (fun _ => hnt k' id') with e | ⟨_, e, _, _⟩ | ⟨e, _, e' | e'⟩
    · exact e
    · rw [hp.dst] at e
      exact absurd e.symm (at_ne hne)
    · exact absurd e'.1 hp.kind
    · exact absurd (at_under k' id') ((hp.source _ e').2.2 k')
  have hall : s.fs.get (Stores.at_ k id) = some x → HoldsDisk s.fs ((Ask.write k id x).after m) := by
    intro hx
    refine ⟨hI.links, hobj, fun k' id' => ?_⟩
    simp only [Ask.after]
    split
    · rename_i e
      rw [e.1, e.2, hx]
    · rename_i e
      exact hother k' id' e
  constructor
  · rcases C47.atomic hO hc (p := Stores.at_ k id) (fun _ => hnt k id) with e | ⟨_, _, _, e⟩ | ⟨_, _, e' | e'⟩
    · left
      refine ⟨hI.links, hobj, fun k' id' => ?_⟩
      by_cases hne : k' = k ∧ id' = id
      · rw [hne.1, hne.2, e, h.holds]
      · exact hother k' id' hne
    · right
      rw [hp.whole] at e
      exact hall e
    · exact absurd e'.1 hp.kind
    · exact absurd (at_under k id) ((hp.source _ e').2.2 k)
  · intro hd
    have := C47.finished hO hc (j := ()) (fun _ _ => rfl) hd
    rw [if_neg hp.kind, hp.dst, hp.whole] at this
    exact hall this

theorem remove_right {fs : Fs} {m : Table} (h : HoldsDisk fs m) (k : Shelf) (id : ObjectId) :
    HoldsDisk (setName fs (Stores.at_ k id) none) ((Ask.remove k id).after m) := by
  refine ⟨?_, ?_, ?_⟩
  · intro p q i hp hq
    simp only [setName] at hp hq
    split at hp
    · cases hp
    · split at hq
      · cases hq
      · exact h.links p q i hp hq
  · intro k' p hu hn
    simp only [setName] at hn
    split at hn
    · exact absurd rfl hn
    · exact h.objects k' p hu hn
  · intro k' id'
    rw [C47.get_setName]
    simp only [Ask.after]
    by_cases e : k' = k ∧ id' = id
    · rw [if_pos e, if_pos]
      rw [e.1, e.2]
    · rw [if_neg e, if_neg (at_ne e), h.holds]

theorem disk_right {fs fs' : Fs} {m : Table} {a : Ask} {b : Answer} (h : HoldsDisk fs m) (hd : Disk fs a fs' b) :
    ∃ m', HoldsDisk fs' m' ∧ Right m a m' b := by
  cases hd with
  | write k id x job s hp hc hdone => exact ⟨_, (comes_right h hp hc).2 hdone, rfl, .inl ⟨k, id, x, rfl⟩⟩
  | writeFails k id x job s hp hc _ =>
    rcases (comes_right h hp hc).1 with h' | h'
    · exact ⟨_, h', .inl rfl⟩
    · exact ⟨_, h', .inr rfl⟩
  | read k id hx => exact ⟨m, h, rfl, k, id, rfl, (h.holds k id).symm.trans hx⟩
  | readFails k id => exact ⟨m, h, .inl rfl⟩
  | remove k id hn => exact ⟨_, remove_right h k id, rfl, .inr ⟨k, id, rfl⟩⟩
  | removeFails k id => exact ⟨m, h, .inl rfl⟩
  | list k l hn hl =>
    refine ⟨m, h, rfl, k, rfl, hn, fun p n => ?_⟩
    rw [hl]
    constructor
    · rintro ⟨⟨hu, hp, hx⟩, x, hg, rfl⟩
      rcases h.objects k p hu hp with e | ⟨k', id, rfl⟩
      · exact absurd e hx
      · obtain rfl := under_iff.mp hu
        exact ⟨id, x, rfl, (h.holds k id).symm.trans hg, rfl⟩
    · rintro ⟨id, x, rfl, hx, rfl⟩
      have hg := (h.holds k id).trans hx
      exact ⟨C47.shown fs hg, x, hg, rfl⟩
  | listFails k => exact ⟨m, h, .inl rfl⟩

theorem disk_cut {fs fs' : Fs} {m : Table} {a : Ask} (h : HoldsDisk fs m) (hd : DiskCut fs a fs') :
    HoldsDisk fs' m ∨ HoldsDisk fs' (a.after m) := by
  cases hd with
  | write k id x job s hp hc => exact (comes_right h hp hc).1
  | remove k id _ => exact .inr (remove_right h k id)
  | nothing => exact .inl h

/-! ## At Backblaze -/

theorem latest_some {B : Bucket} {p : Name} {x : Bytes} (h : B.latest p = some x) : ∃ v ∈ B, v.name = p ∧ v.data = x := by
  unfold Bucket.latest at h
  obtain ⟨v, hv, rfl⟩ := Option.map_eq_some_iff.mp h
  exact ⟨v, List.mem_of_find?_eq_some hv, by simpa using List.find?_some hv, rfl⟩

theorem table_sorted (B : Bucket) : BMap.Sorted B.table := by
  induction B with
  | nil => exact BMap.sorted_nil
  | cons v B ih => exact BMap.sorted_insert ih _ _

theorem table_get (B : Bucket) (p : Name) :
    B.table.get? p = (B.latest p).map fun x => (⟨.upload, some x.length⟩ : B2.Item) := by
  induction B with
  | nil => rfl
  | cons v B ih =>
    have hs := table_sorted B
    show (BMap.insert v.name _ (Bucket.table B)).get? p = _
    rw [get_insert hs, ih]
    unfold Bucket.latest
    rw [List.find?_cons]
    by_cases e : v.name = p
    · simp [e]
    · have e' : ¬ p = v.name := fun h => e h.symm
      simp [e, e']

/-- Everything that an upload leaves there is all of the object. -/
theorem adds_right {B B' : Bucket} {m : Table} {k : Shelf} {id : ObjectId} {x : Bytes} {ys : List Bytes}
    (h : HoldsRemote B m) (ha : Adds B (Stores.at_ k id) ys B') (hy : ∀ y ∈ ys, y = x) :
    (ys = [] ∧ HoldsRemote B' m) ∨ (ys ≠ [] ∧ HoldsRemote B' ((Ask.write k id x).after m)) := by
  obtain ⟨new, rfl, hn, hname, hids⟩ := ha
  have hobj : ∀ v ∈ new ++ B, ∃ k id, v.name = Stores.at_ k id := by
    intro v hv
    rcases List.mem_append.mp hv with hv | hv
    · exact ⟨k, id, hname v hv⟩
    · exact h.objects v hv
  cases new with
  | nil =>
    left
    refine ⟨by simpa using hn.symm, hids, hobj, h.holds⟩
  | cons v new =>
    right
    have hne : ys ≠ [] := by
      rintro rfl
      simp at hn
    refine ⟨hne, hids, hobj, fun k' id' => ?_⟩
    have hv : v.data = x := by
      apply hy
      rw [← List.mem_reverse, ← hn]
      simp
    simp only [Ask.after]
    by_cases e : k' = k ∧ id' = id
    · rw [if_pos e, e.1, e.2]
      have := hname v List.mem_cons_self
      simp [Bucket.latest, this, hv]
    · rw [if_neg e, ← h.holds]
      unfold Bucket.latest
      rw [List.find?_append, List.find?_eq_none.mpr]
      · rfl
      · intro w hw
        rw [hname w hw]
        simpa using fun he => at_ne e he.symm

theorem delete_right {B : Bucket} {m : Table} {k : Shelf} {id : ObjectId} {vs : List B2.Version} (h : HoldsRemote B m)
    (hd : B2.delete (B.map Stored.version) (Stores.at_ k id) = some vs) :
    HoldsRemote (B.filter fun v => v.version ∈ vs) ((Ask.remove k id).after m) := by
  obtain ⟨h1, h2⟩ := C55.removes hd
  refine ⟨(List.filter_sublist.map Stored.id).nodup h.ids, fun v hv => h.objects v (List.mem_filter.mp hv).1, ?_⟩
  intro k' id'
  simp only [Ask.after]
  by_cases e : k' = k ∧ id' = id
  · rw [if_pos e, e.1, e.2]
    cases hl : Bucket.latest (B.filter fun v => v.version ∈ vs) (Stores.at_ k id) with
    | none => rfl
    | some x =>
      exfalso
      obtain ⟨v, hv, hn, _⟩ := latest_some hl
      exact h1 _ (of_decide_eq_true (List.mem_filter.mp hv).2) hn
  · rw [if_neg e, ← h.holds]
    unfold Bucket.latest
    rw [List.find?_filter]
    congr 1
    have : ∀ l : Bucket, (∀ v ∈ l, v ∈ B) →
        l.find? (fun a => decide (decide (a.version ∈ vs) = true ∧ decide (a.name = Stores.at_ k' id') = true)) =
        l.find? (fun v => decide (v.name = Stores.at_ k' id')) := by
      intro l
      induction l with
      | nil => intro _; rfl
      | cons v l ih =>
        intro hsub
        have ih := ih (fun w hw => hsub w (List.mem_cons_of_mem _ hw))
        rw [List.find?_cons, List.find?_cons, ih]
        by_cases hv : v.name = Stores.at_ k' id'
        · have : v.version ∈ vs := (h2 v.version (by show v.name ≠ _; rw [hv]; exact at_ne e)).mpr
            (List.mem_map_of_mem (hsub v List.mem_cons_self))
          simp [hv, this]
        · simp [hv]
    exact this B (fun _ h => h)

/-- A listing that is answered is complete. -/
theorem listed_all (B : BMap Name B2.Item) (pre : Name) (ask : Nat → Option Name → Except Unit B2.Answer)
    (hask : ∀ i s a, ask i s = .ok a → B2.Page B pre s a) {fuel : Nat} {l : List (Name × Nat)}
    (h : B2.list ask fuel = some (.ok l)) : l = B2.uploads (B.filter fun e => pre.isPrefixOf e.1) := by
  have hu : ∀ a b, B2.uploads (a ++ b) = B2.uploads a ++ B2.uploads b := by simp [B2.uploads]
  have key : ∀ fuel i start fs l, B2.listLoop ask fuel i start fs = some (.ok l) →
      l = fs ++ B2.uploads (B2.showing B pre start) := by
    intro fuel
    induction fuel with
    | zero => intro i start fs l h; cases h
    | succ fuel ih =>
      intro i start fs l h
      unfold B2.listLoop at h
      cases ha : ask i start with
      | error u => rw [ha] at h; cases h
      | ok a =>
        obtain ⟨page, next⟩ := a
        obtain ⟨rest, h1, h2, h3⟩ := hask i start _ ha
        rw [ha] at h
        dsimp only at h h1 h2 h3
        cases next with
        | none =>
          cases h
          rw [h1, h2 rfl, List.append_nil]
        | some n =>
          rw [h1, hu, (h3 n rfl).2.1, ← List.append_assoc]
          exact ih _ _ _ _ h
  have := key fuel 0 none [] l h
  simpa [B2.showing] using this

theorem uploads_table {B : Bucket} {m : Table} (h : HoldsRemote B m) (k : Shelf) :
    Lists m k (B2.uploads (B.table.filter fun e => k.dir.isPrefixOf e.1)) := by
  have hs := table_sorted B
  have hmem : ∀ p n, (p, n) ∈ B2.uploads (B.table.filter fun e => k.dir.isPrefixOf e.1) ↔
      k.dir <+: p ∧ ∃ x, B.latest p = some x ∧ n = x.length := by
    intro p n
    simp only [B2.uploads, List.mem_filterMap, List.mem_filter, List.isPrefixOf_iff_prefix, decide_eq_true_eq]
    constructor
    · rintro ⟨⟨q, i⟩, ⟨⟨hm, hp⟩, _⟩, he⟩
      have hg := (get_iff hs).mpr hm
      rw [table_get] at hg
      obtain ⟨x, hx, rfl⟩ := Option.map_eq_some_iff.mp hg
      simp only [Option.map_some, Option.some.injEq, Prod.mk.injEq] at he
      obtain ⟨rfl, rfl⟩ := he
      exact ⟨hp, x, hx, rfl⟩
    · rintro ⟨hp, x, hx, rfl⟩
      refine ⟨(p, ⟨.upload, some x.length⟩), ⟨⟨(get_iff hs).mp ?_, hp⟩, rfl⟩, rfl⟩
      rw [table_get, hx]
      rfl
  constructor
  · have : ((B2.uploads (B.table.filter fun e => k.dir.isPrefixOf e.1)).map Prod.fst).Sublist (BMap.keys B.table) := by
      unfold B2.uploads BMap.keys
      generalize hA : (B.table.filter fun e => k.dir.isPrefixOf e.1).filter (fun e => decide (e.2.action = .upload)) = A
      have hA' : A.Sublist B.table := hA ▸ List.filter_sublist.trans List.filter_sublist
      refine List.Sublist.trans ?_ (hA'.map Prod.fst)
      clear hA hA'
      induction A with
      | nil => exact List.Sublist.refl _
      | cons e A ih =>
        rw [List.filterMap_cons]
        cases e.2.length with
        | none => exact ih.cons _
        | some n => exact ih.cons_cons _
    exact this.nodup hs.nodup
  · intro p n
    rw [hmem]
    constructor
    · rintro ⟨hp, x, hx, rfl⟩
      obtain ⟨v, hv, rfl, _⟩ := latest_some hx
      obtain ⟨k', id, e⟩ := h.objects v hv
      rw [e] at hp hx ⊢
      obtain rfl := under_iff.mp hp
      exact ⟨id, x, rfl, (h.holds k id).symm.trans hx, rfl⟩
    · rintro ⟨id, x, rfl, hx, rfl⟩
      exact ⟨at_under k id, x, (h.holds k id).trans hx, rfl⟩

variable {sha : Bytes → Bytes}

theorem remote_right (hsha : ∀ x, (sha x).length = 40) {B B' : Bucket} {m : Table} {a : Ask} {b : Answer}
    (h : HoldsRemote B m) (hd : Remote sha B a B' b) :
    ∃ m', HoldsRemote B' m' ∧ Right m a m' b ∧ (b = .failed → m' = m) := by
  cases hd with
  | write k id x net fuel ys _ hu ha =>
    have hw := C52.never_wrong sha hsha x net fuel
    rw [hu] at hw
    rcases adds_right h ha hw.1 with ⟨e, _⟩ | ⟨_, h'⟩
    · have := hw.2 rfl
      rw [e] at this
      cases this
    · exact ⟨_, h', ⟨rfl, .inl ⟨k, id, x, rfl⟩⟩, by simp⟩
  | read k id x up fuel hx =>
    exact ⟨m, h, ⟨rfl, k, id, rfl, (h.holds k id).symm.trans ((C52.afresh _ _ _ _).mp hx).1⟩, by simp⟩
  | breaks k id x up fuel hx => exact ⟨m, h, .inl rfl, fun _ => rfl⟩
  | remove k id up fuel vs hr =>
    exact ⟨_, delete_right h ((C52.afresh _ _ _ _).mp hr).1, ⟨rfl, .inr ⟨k, id, rfl⟩⟩, by simp⟩
  | list k ask fuel l hask hl =>
    refine ⟨m, h, ⟨rfl, k, rfl, ?_⟩, by simp⟩
    rw [listed_all _ _ ask hask hl]
    exact uploads_table h k

theorem remote_cut (hsha : ∀ x, (sha x).length = 40) {B B' : Bucket} {m : Table} {a : Ask} (h : HoldsRemote B m)
    (hd : RemoteCut sha B a B') : HoldsRemote B' m ∨ HoldsRemote B' (a.after m) := by
  cases hd with
  | write k id x net fuel b ys _ hu ha =>
    have hw := C52.never_wrong sha hsha x net fuel
    rw [hu] at hw
    rcases adds_right h ha hw.1 with ⟨_, h'⟩ | ⟨_, h'⟩
    · exact .inl h'
    · exact .inr h'
  | remove k id vs hr => exact .inr (delete_right h hr)
  | nothing => exact .inl h

/-! ## One after another -/

/-- What a store does, or what is found of it when the program was killed: then there is no answer, which counts as
failing. -/
inductive OrKilled {S : Type} (does : S → Ask → S → Answer → Prop) (cut : S → Ask → S → Prop) : S → Ask → S → Answer → Prop
  | answered {s a s' b} : does s a s' b → OrKilled does cut s a s' b
  | killed {s a s'} : cut s a s' → OrKilled does cut s a s' .failed

theorem runs_right {S : Type} {does : S → Ask → S → Answer → Prop} {Holds : S → Table → Prop}
    (h : ∀ s m a s' b, Holds s m → does s a s' b → ∃ m', Holds s' m' ∧ Right m a m' b) {s s' : S}
    {l : List (Ask × Answer)} (hr : Runs does s l s') : ∀ {m : Table}, Holds s m → ∃ m', Holds s' m' ∧ RightRun m l m' := by
  induction hr with
  | nil s => exact fun hm => ⟨_, hm, .nil _⟩
  | cons h1 _ ih =>
    intro m hm
    obtain ⟨m1, hm1, hr1⟩ := h _ _ _ _ _ hm h1
    obtain ⟨m2, hm2, hr2⟩ := ih hm1
    exact ⟨m2, hm2, .cons hr1 hr2⟩

/-- Whatever is asked of a repository on a disk, one thing after another, and however often the program is killed: the
answers are those of a table of objects, and that is what is on the disk. -/
theorem disk {fs fs' : Fs} {m : Table} {l : List (Ask × Answer)} (h : HoldsDisk fs m)
    (hr : Runs (OrKilled Disk DiskCut) fs l fs') : ∃ m', HoldsDisk fs' m' ∧ RightRun m l m' := by
  refine runs_right (Holds := HoldsDisk) ?_ hr h
  intro s m a s' b hm hd
  cases hd with
  | answered hd => exact disk_right hm hd
  | killed hd =>
    rcases disk_cut hm hd with h' | h'
    · exact ⟨_, h', .inl rfl⟩
    · exact ⟨_, h', .inr rfl⟩

/-- The same at Backblaze, however often requests fail, as far as there is an answer. -/
theorem remote (hsha : ∀ x, (sha x).length = 40) {B B' : Bucket} {m : Table} {l : List (Ask × Answer)}
    (h : HoldsRemote B m) (hr : Runs (OrKilled (Remote sha) (RemoteCut sha)) B l B') :
    ∃ m', HoldsRemote B' m' ∧ RightRun m l m' := by
  refine runs_right (Holds := HoldsRemote) ?_ hr h
  intro s m a s' b hm hd
  cases hd with
  | answered hd =>
    obtain ⟨m', h1, h2, _⟩ := remote_right hsha hm hd
    exact ⟨m', h1, h2⟩
  | killed hd =>
    rcases remote_cut hsha hm hd with h' | h'
    · exact ⟨_, h', .inl rfl⟩
    · exact ⟨_, h', .inr rfl⟩

/-- The same in memory. -/
theorem memory {M M' : BMap Bytes Bytes} {m : Table} {l : List (Ask × Answer)} (h : HoldsMemory M m)
    (hr : Runs Memory M l M') : ∃ m', HoldsMemory M' m' ∧ RightRun m l m' := by
  refine runs_right (Holds := HoldsMemory) ?_ hr h
  intro s m a s' b hm hd
  obtain ⟨m', h1, h2, _⟩ := memory_right hm hd
  exact ⟨m', h1, h2⟩

/-! ## The same answers -/

theorem lists_perm {m : Table} {k : Shelf} {l l' : List (Bytes × Nat)} (h : Lists m k l) (h' : Lists m k l') : l.Perm l' := by
  rw [List.perm_ext_iff_of_nodup (List.Nodup.of_map _ h.1) (List.Nodup.of_map _ h'.1)]
  rintro ⟨p, n⟩
  rw [h.2, h'.2]

theorem right_alike {m m1 m2 : Table} {a : Ask} {b1 b2 : Answer} (h1 : Right m a m1 b1) (h2 : Right m a m2 b2)
    (f1 : b1 ≠ .failed) (f2 : b2 ≠ .failed) : m1 = m2 ∧ SameAnswer b1 b2 := by
  cases b1 with
  | failed => exact absurd rfl f1
  | done =>
    obtain ⟨rfl, h⟩ := h1
    cases b2 with
    | failed => exact absurd rfl f2
    | done => exact ⟨h2.1.symm, trivial⟩
    | got x =>
      obtain ⟨_, k, id, rfl, _⟩ := h2
      rcases h with ⟨_, _, _, h⟩ | ⟨_, _, h⟩ <;> cases h
    | paths l =>
      obtain ⟨_, k, rfl, _⟩ := h2
      rcases h with ⟨_, _, _, h⟩ | ⟨_, _, h⟩ <;> cases h
  | got x =>
    obtain ⟨rfl, k, id, rfl, hx⟩ := h1
    cases b2 with
    | failed => exact absurd rfl f2
    | done => rcases h2.2 with ⟨_, _, _, h⟩ | ⟨_, _, h⟩ <;> cases h
    | got y =>
      obtain ⟨rfl, k', id', h, hy⟩ := h2
      cases h
      exact ⟨rfl, Option.some.inj (hx.symm.trans hy)⟩
    | paths l =>
      obtain ⟨_, k', h, _⟩ := h2
      cases h
  | paths l =>
    obtain ⟨rfl, k, rfl, hl⟩ := h1
    cases b2 with
    | failed => exact absurd rfl f2
    | done => rcases h2.2 with ⟨_, _, _, h⟩ | ⟨_, _, h⟩ <;> cases h
    | got y =>
      obtain ⟨_, k', id', h, _⟩ := h2
      cases h
    | paths l' =>
      obtain ⟨rfl, k', h, hl'⟩ := h2
      cases h
      exact ⟨rfl, lists_perm hl hl'⟩

theorem run_alike {m m1 m2 : Table} {l1 l2 : List (Ask × Answer)} (h1 : RightRun m l1 m1) (h2 : RightRun m l2 m2)
    (hl : l1.map Prod.fst = l2.map Prod.fst) (f1 : ∀ e ∈ l1, e.2 ≠ .failed) (f2 : ∀ e ∈ l2, e.2 ≠ .failed) :
    m1 = m2 ∧ List.Forall₂ SameAnswer (l1.map Prod.snd) (l2.map Prod.snd) := by
  induction h1 generalizing l2 with
  | nil m =>
    cases h2 with
    | nil => exact ⟨rfl, .nil⟩
    | cons _ _ => simp at hl
  | @cons m m1 m2 a b l h _ ih =>
    cases h2 with
    | nil => simp at hl
    | cons h' hr' =>
      simp only [List.map_cons, List.cons.injEq] at hl
      obtain ⟨rfl, hl⟩ := hl
      obtain ⟨rfl, hs⟩ := right_alike h h' (f1 _ List.mem_cons_self) (f2 _ List.mem_cons_self)
      obtain ⟨h3, h4⟩ := ih hr' hl (fun e he => f1 e (List.mem_cons_of_mem _ he)) (fun e he => f2 e (List.mem_cons_of_mem _ he))
      exact ⟨h3, .cons hs h4⟩

/-- Two repositories that hold the same, one on a disk and one at Backblaze, answer alike whatever is asked of both,
and hold the same at the end, if neither fails. -/
theorem alike (hsha : ∀ x, (sha x).length = 40) {fs fs' : Fs} {B B' : Bucket} {m : Table} {l1 l2 : List (Ask × Answer)}
    (h1 : HoldsDisk fs m) (h2 : HoldsRemote B m) (r1 : Runs Disk fs l1 fs') (r2 : Runs (Remote sha) B l2 B')
    (hl : l1.map Prod.fst = l2.map Prod.fst) (f1 : ∀ e ∈ l1, e.2 ≠ .failed) (f2 : ∀ e ∈ l2, e.2 ≠ .failed) :
    (∃ m', HoldsDisk fs' m' ∧ HoldsRemote B' m') ∧ List.Forall₂ SameAnswer (l1.map Prod.snd) (l2.map Prod.snd) := by
  obtain ⟨m1, g1, s1⟩ := runs_right (Holds := HoldsDisk) (fun _ _ _ _ _ h hd => disk_right h hd) r1 h1
  obtain ⟨m2, g2, s2⟩ := runs_right (Holds := HoldsRemote) (fun _ _ _ _ _ h hd => by
    obtain ⟨m', h3, h4, _⟩ := remote_right hsha h hd
    exact ⟨m', h3, h4⟩) r2 h2
  obtain ⟨rfl, hs⟩ := run_alike s1 s2 hl f1 f2
  exact ⟨⟨m1, g1, g2⟩, hs⟩

/-- The tests keep repositories in memory; one on a disk answers as that does. -/
theorem alike_memory {fs fs' : Fs} {M M' : BMap Bytes Bytes} {m : Table} {l1 l2 : List (Ask × Answer)}
    (h1 : HoldsDisk fs m) (h2 : HoldsMemory M m) (r1 : Runs Disk fs l1 fs') (r2 : Runs Memory M l2 M')
    (hl : l1.map Prod.fst = l2.map Prod.fst) (f1 : ∀ e ∈ l1, e.2 ≠ .failed) (f2 : ∀ e ∈ l2, e.2 ≠ .failed) :
    (∃ m', HoldsDisk fs' m' ∧ HoldsMemory M' m') ∧ List.Forall₂ SameAnswer (l1.map Prod.snd) (l2.map Prod.snd) := by
  obtain ⟨m1, g1, s1⟩ := runs_right (Holds := HoldsDisk) (fun _ _ _ _ _ h hd => disk_right h hd) r1 h1
  obtain ⟨m2, g2, s2⟩ := memory h2 r2
  obtain ⟨rfl, hs⟩ := run_alike s1 s2 hl f1 f2
  exact ⟨⟨m1, g1, g2⟩, hs⟩

/-! ## Which are answered -/

/-- In memory everything is answered, and only reading what is not there fails. -/
theorem memory_answers (M : BMap Bytes Bytes) (a : Ask) : ∃ M' b, Memory M a M' b := by
  cases a with
  | write k id x => exact ⟨_, _, .write M k id x⟩
  | read k id =>
    cases h : M.get? (Stores.at_ k id) with
    | none => exact ⟨_, _, .none M k id h⟩
    | some x => exact ⟨_, _, .read M k id h⟩
  | remove k id => exact ⟨_, _, .remove M k id⟩
  | list k => exact ⟨_, _, .list M k _ (List.Perm.refl _)⟩

theorem at_prefix {k k' : Shelf} {id id' : ObjectId} (h : Stores.at_ k id <+: Stores.at_ k' id') : k = k' ∧ id = id' := by
  have hk : k = k' := under_iff.mp ((at_under k id).trans h)
  subst hk
  apply at_inj
  apply h.eq_of_length
  unfold Stores.at_ objectName
  simp only [List.length_append, (C01.display_shape id).1, (C01.display_shape id').1]

/-- At Backblaze an object is removed exactly if it is there in one version. -/
theorem remote_removes_iff {B : Bucket} {m : Table} (h : HoldsRemote B m) (k : Shelf) (id : ObjectId) :
    (∃ B' b, Remote sha B (.remove k id) B' b) ↔ ∃ v, (B.filter fun v => v.name = Stores.at_ k id) = [v] := by
  have hf : ((B.map Stored.version).filter fun v => (Stores.at_ k id).isPrefixOf v.name) =
      (B.filter fun v => v.name = Stores.at_ k id).map Stored.version := by
    rw [List.filter_map]
    congr 1
    apply List.filter_congr
    intro v hv
    obtain ⟨k', id', e⟩ := h.objects v hv
    show (Stores.at_ k id).isPrefixOf v.name = _
    rw [Bool.eq_iff_iff, List.isPrefixOf_iff_prefix, decide_eq_true_eq, e]
    constructor
    · intro hp
      obtain ⟨rfl, rfl⟩ := at_prefix hp
      rfl
    · intro he
      rw [he]
  have hcan := C55.can_iff (B.map Stored.version) (Stores.at_ k id)
  rw [hf] at hcan
  constructor
  · rintro ⟨B', b, hr⟩
    cases hr with
    | remove _ _ up fuel vs hr =>
      obtain ⟨w, _, hw⟩ := hcan.mp ⟨vs, ((C52.afresh _ _ _ _).mp hr).1⟩
      have hl := congrArg List.length hw
      rw [List.length_map] at hl
      exact List.length_eq_one_iff.mp hl
  · rintro ⟨v, hv⟩
    obtain ⟨vs, hvs⟩ := hcan.mpr ⟨v.version, by
      have : v ∈ B.filter fun v => v.name = Stores.at_ k id := by rw [hv]; exact List.mem_singleton_self v
      exact of_decide_eq_true (List.mem_filter.mp this).2, by rw [hv]; rfl⟩
    exact ⟨_, _, .remove B k id (fun _ => true) 1 vs ((C52.afresh _ _ _ _).mpr ⟨hvs, 0, by omega, rfl⟩)⟩

/-- Of an object that is not there: in memory removing it succeeds, on a disk it fails, and at Backblaze neither
removing nor reading it ever ends. -/
theorem absent_differs {M : BMap Bytes Bytes} {fs : Fs} {B : Bucket} {m : Table} {k : Shelf} {id : ObjectId}
    (hM : HoldsMemory M m) (hD : HoldsDisk fs m) (hB : HoldsRemote B m) (hm : m k id = none) :
    (∀ M' b, Memory M (.remove k id) M' b → b = .done ∧ HoldsMemory M' m) ∧
    (∀ fs' b, Disk fs (.remove k id) fs' b → b = .failed) ∧
    (∀ B' b, ¬ Remote sha B (.remove k id) B' b) ∧
    (∀ M' b, Memory M (.read k id) M' b → b = .failed) ∧
    (∀ fs' b, Disk fs (.read k id) fs' b → b = .failed) ∧
    (∀ B' b, ¬ Remote sha B (.read k id) B' b) := by
  have hB0 : B.latest (Stores.at_ k id) = none := (hB.holds k id).trans hm
  refine ⟨?_, ?_, ?_, ?_, ?_, ?_⟩
  · intro M' b h
    obtain ⟨m', h1, h2, _⟩ := memory_right hM h
    cases h with
    | remove =>
      refine ⟨rfl, ?_⟩
      have : m' = m := by
        rw [h2.1]
        funext k' id'
        simp only [Ask.after]
        split
        · rename_i e
          rw [e.1, e.2, hm]
        · rfl
      exact this ▸ h1
  · intro fs' b h
    cases h with
    | remove _ _ hn => exact absurd (get_none.mp ((hD.holds k id).trans hm)) hn
    | removeFails => rfl
  · intro B' b h
    obtain ⟨v, hv⟩ := (remote_removes_iff (sha := sha) hB k id).mp ⟨B', b, h⟩
    have : v ∈ B.filter fun v => v.name = Stores.at_ k id := by rw [hv]; exact List.mem_singleton_self v
    rw [List.mem_filter] at this
    unfold Bucket.latest at hB0
    rw [Option.map_eq_none_iff, List.find?_eq_none] at hB0
    exact hB0 v this.1 this.2
  · intro M' b h
    cases h with
    | read _ _ hx =>
      rw [hM.holds, hm] at hx
      cases hx
    | none => rfl
  · intro fs' b h
    cases h with
    | read _ _ hx =>
      rw [hD.holds, hm] at hx
      cases hx
    | readFails => rfl
  · intro B' b h
    cases h with
    | read _ _ x up fuel hx =>
      have := ((C52.afresh _ _ _ _).mp hx).1
      rw [hB0] at this
      cases this
    | breaks _ _ x up fuel hx =>
      have := ((C52.afresh _ _ _ _).mp hx).1
      rw [hB0] at this
      cases this

/-- An object that is written twice, which on a disk makes no difference, can be read and is listed once at Backblaze as
well; but removing it never ends. -/
theorem twice_differs (hsha : ∀ x, (sha x).length = 40) {B B1 B2 : Bucket} {m : Table} {k : Shelf} {id : ObjectId}
    {x y : Bytes} (h : HoldsRemote B m) (h1 : Remote sha B (.write k id x) B1 .done)
    (h2 : Remote sha B1 (.write k id y) B2 .done) :
    HoldsRemote B2 ((Ask.write k id y).after m) ∧ ∀ B' b, ¬ Remote sha B2 (.remove k id) B' b := by
  have on_top : ∀ {B B' : Bucket} {x : Bytes}, Remote sha B (.write k id x) B' .done →
      ∃ v l, v.name = Stores.at_ k id ∧ B' = l ++ B ∧ v ∈ l := by
    intro B B' x hw
    cases hw with
    | write _ _ _ net fuel ys _ hu ha =>
      have hw := C52.never_wrong sha hsha x net fuel
      rw [hu] at hw
      have hx := hw.2 rfl
      obtain ⟨new, e, hn, hname, _⟩ := ha
      rw [← List.mem_reverse, ← hn, List.mem_map] at hx
      obtain ⟨v, hv, _⟩ := hx
      exact ⟨v, new, hname v hv, e, hv⟩
  obtain ⟨m1, g1, r1, _⟩ := remote_right hsha h h1
  obtain ⟨m2, g2, r2, _⟩ := remote_right hsha g1 h2
  have e2 : m2 = (Ask.write k id y).after m := by
    rw [r2.1, r1.1]
    funext k' id'
    simp only [Ask.after]
    split <;> rfl
  refine ⟨e2 ▸ g2, fun B' b hr => ?_⟩
  obtain ⟨u, hu⟩ := (remote_removes_iff (sha := sha) g2 k id).mp ⟨B', b, hr⟩
  obtain ⟨v, l, hv, e, hvl⟩ := on_top h1
  obtain ⟨w, l', hw, e', hwl⟩ := on_top h2
  rw [e', e, List.filter_append, List.filter_append] at hu
  have hl := congrArg List.length hu
  rw [List.length_append, List.length_append] at hl
  have p1 : 0 < (l'.filter fun v => v.name = Stores.at_ k id).length :=
    List.length_pos_of_mem (List.mem_filter.mpr ⟨hwl, by simpa using hw⟩)
  have p2 : 0 < (l.filter fun v => v.name = Stores.at_ k id).length :=
    List.length_pos_of_mem (List.mem_filter.mpr ⟨hvl, by simpa using hv⟩)
  simp only [List.length_singleton] at hl
  omega

/-- On a disk what was written twice is removed as anything else. -/
theorem disk_removes {fs : Fs} {m : Table} {k : Shelf} {id : ObjectId} {x : Bytes} (h : HoldsDisk fs m)
    (hx : m k id = some x) : ∃ fs', Disk fs (.remove k id) fs' .done := by
  refine ⟨_, .remove fs k id ?_⟩
  intro hn
  have := get_none.mpr hn
  rw [h.holds, hx] at this
  cases this

/-- On a disk everything can be written, as long as there are names and files left. -/
theorem disk_writes {fs : Fs} (k : Shelf) (id : ObjectId) (x : Bytes) {r : Bytes} {i : Nat} (hr : (47 : UInt8) ∉ r)
    (hn : fs.names (tempName (Stores.at_ k id) r) = none) (hi : ∀ p, fs.names p ≠ some i) :
    ∃ fs', Disk fs (.write k id x) fs' .done := by
  let job : Job := ⟨.copy, Stores.at_ k id, tempName (Stores.at_ k id) r, x⟩
  let jobs : Unit → Job := fun _ => job
  have hp : Puts fs k id x job := ⟨by simp [job], rfl, rfl, ⟨r, hr, rfl⟩, hn, fun _ h => by cases h⟩
  let s1 : State Unit := ⟨write (setName fs job.temp (some i)) i [], Files.at_ (fun _ => .ready) () (.writing i [])⟩
  let s2 : State Unit := ⟨write s1.fs i (s1.fs.data i ++ x), Files.at_ s1.pc () (.writing i ([] ++ x))⟩
  let s3 : State Unit := ⟨rename s2.fs job.temp job.dst, Files.at_ s2.pc () (.moved i)⟩
  let s4 : State Unit := ⟨sync s3.fs i, Files.at_ s3.pc () (.synced i)⟩
  let s5 : State Unit := ⟨s4.fs, Files.at_ s4.pc () .done⟩
  have r1 : Step jobs ⟨fs, fun _ => .ready⟩ s1 := .create _ () i rfl rfl hn hi
  have r2 : Step jobs s1 s2 := .append s1 () i [] x rfl (List.prefix_refl _)
  have r3 : Step jobs s2 s3 := .persist s2 () i rfl
  have r4 : Step jobs s3 s4 := .sync s3 () i rfl
  have r5 : Step jobs s4 s5 := .finish s4 () i rfl rfl
  have hc : Comes job fs s5 := ((((Relation.ReflTransGen.refl.tail r1).tail r2).tail r3).tail r4).tail r5
  exact ⟨_, .write fs k id x job s5 hp hc rfl⟩

/-- A disk with finitely many files can be listed. -/
theorem disk_lists {fs : Fs} (k : Shelf) {L : List Bytes} (hL : ∀ p, fs.names p ≠ none → p ∈ L) :
    ∃ l, Disk fs (.list k) fs (.paths l) := by
  classical
  let l : List (Bytes × Nat) := (L.dedup.filter fun p => Listed fs k.dir p).map fun p => (p, ((fs.get p).getD []).length)
  refine ⟨l, .list fs k l ?_ ?_⟩
  · simp only [l, List.map_map]
    have : (Prod.fst ∘ fun p : Bytes => (p, ((fs.get p).getD []).length)) = id := rfl
    rw [this, List.map_id]
    exact (List.nodup_dedup L).filter _
  · intro p n
    simp only [l, List.mem_map, List.mem_filter, List.mem_dedup, decide_eq_true_eq, Prod.mk.injEq]
    constructor
    · rintro ⟨q, ⟨_, hq⟩, rfl, rfl⟩
      refine ⟨hq, ?_⟩
      cases hg : fs.get q with
      | none => exact absurd (get_none.mp hg) hq.2.1
      | some x => exact ⟨x, rfl, rfl⟩
    · rintro ⟨hq, x, hx, rfl⟩
      exact ⟨p, ⟨hL p hq.2.1, hq⟩, rfl, by rw [hx]; rfl⟩

theorem le_sum {n : Nat} {l : List Nat} (h : n ∈ l) : n ≤ l.sum := by
  induction l with
  | nil => cases h
  | cons a l ih =>
    rw [List.sum_cons]
    rcases List.mem_cons.mp h with rfl | h
    · omega
    · have := ih h; omega

/-- At Backblaze everything can be written and listed, and what is there can be read. -/
theorem remote_answers (hsha : ∀ x, (sha x).length = 40) (B : Bucket) (hids : (B.map Stored.id).Nodup) (k : Shelf)
    (id : ObjectId) (x : Bytes) :
    (∃ B', Remote sha B (.write k id x) B' .done) ∧ (∃ l, Remote sha B (.list k) B (.paths l)) ∧
    (B.latest (Stores.at_ k id) = some x → Remote sha B (.read k id) B (.got x)) := by
  refine ⟨⟨⟨Stores.at_ k id, (B.map Stored.id).sum + 1, x⟩ :: B, ?_⟩, ?_, ?_⟩
  · refine .write B k id x (fun _ => .fine) 1 [x] _ (C52.retried_partial sha hsha x _ 0 rfl (by simp))
      ⟨[⟨Stores.at_ k id, (B.map Stored.id).sum + 1, x⟩], rfl, rfl, by simp, ?_⟩
    rw [List.map_cons, List.nodup_cons]
    refine ⟨fun hm => ?_, hids⟩
    have := le_sum hm
    dsimp only at this
    omega
  · refine ⟨_, .list B k (fun _ s => .ok (B2.showing B.table k.dir s, none)) (B.table.length + 1) _ ?_
      (C51.lists_all B.table k.dir _ ?_ _ (Nat.lt_succ_self _))⟩
    · rintro i s a h
      cases h
      exact ⟨[], by simp, fun _ => rfl, by simp⟩
    · intro i s
      exact ⟨_, rfl, [], by simp, fun _ => rfl, by simp⟩
  · intro hx
    exact .read B k id x (fun _ => true) 1 ((C52.afresh _ _ _ _).mpr ⟨hx, 0, by omega, rfl⟩)

/-! ## Examples -/

/-- Nothing yet. -/
def noFiles : Fs := ⟨fun _ => none, fun _ => [], fun _ => false⟩

def empty : Table := fun _ _ => none

theorem empty_disk : HoldsDisk noFiles empty :=
  ⟨(fun _ _ _ h => by cases h), fun _ _ _ h => absurd rfl h, fun _ _ => rfl⟩

theorem empty_remote : HoldsRemote [] empty := ⟨by simp, by simp, fun _ _ => rfl⟩

theorem empty_memory : HoldsMemory [] empty := ⟨BMap.sorted_nil, by simp [BMap.keys], fun _ _ => rfl⟩

/-- A pack is written, listed, read and removed, on a disk and at Backblaze. -/
def asks (x : Bytes) : List Ask := [.write .pack C47.idE x, .list .index, .read .pack C47.idE, .remove .pack C47.idE]

theorem disk_runs (x : Bytes) : ∃ l fs', Runs Disk noFiles l fs' ∧ l.map Prod.fst = asks x ∧ (∀ e ∈ l, e.2 ≠ .failed) := by
  obtain ⟨fs1, h1⟩ := disk_writes (fs := noFiles) .pack C47.idE x (r := [97]) (i := 0) (by decide) rfl (fun _ h => by cases h)
  obtain ⟨m1, g1, e1, _⟩ := disk_right empty_disk h1
  have hx : m1 .pack C47.idE = some x := by
    rw [e1]
    simp [Ask.after]
  obtain ⟨fs2, h3⟩ := disk_removes g1 hx
  have h2 : Disk fs1 (.list .index) fs1 (.paths []) := by
    refine .list fs1 .index [] (by simp) ?_
    intro p n
    constructor
    · intro h; cases h
    · rintro ⟨⟨hu, hp, hq⟩, _⟩
      exfalso
      rcases g1.objects .index p hu hp with e | ⟨k, id, rfl⟩
      · exact hq e
      · obtain rfl := under_iff.mp hu
        apply hp
        rw [← get_none, g1.holds, e1]
        simp [Ask.after, empty]
  exact ⟨[(_, _), (_, _), (_, _), (_, _)], fs2, .cons h1 (.cons h2 (.cons (.read fs1 .pack C47.idE ((g1.holds _ _).trans hx))
    (.cons h3 (.nil _)))), rfl, by simp⟩

theorem remote_runs (x : Bytes) : ∃ l B', Runs (Remote C51.toySha) [] l B' ∧ l.map Prod.fst = asks x ∧
    (∀ e ∈ l, e.2 ≠ .failed) := by
  let B : Bucket := [⟨Stores.at_ .pack C47.idE, 7, x⟩]
  have h1 : Remote C51.toySha [] (.write .pack C47.idE x) B .done :=
    .write [] .pack C47.idE x (fun _ => .fine) 1 [x] B (C52.retried_partial _ C51.toySha_length x _ 0 rfl (by simp))
      ⟨B, by simp, rfl, by simp [B], by simp [B]⟩
  obtain ⟨m1, g1, e1, _⟩ := remote_right C51.toySha_length empty_remote h1
  obtain ⟨_, ⟨l, h2⟩, h3⟩ := remote_answers C51.toySha_length B (by simp [B]) .index C47.idE x
  obtain ⟨B', b, h4⟩ := (remote_removes_iff (sha := C51.toySha) g1 .pack C47.idE).mpr ⟨⟨Stores.at_ .pack C47.idE, 7, x⟩, by simp [B]⟩
  have hb : b = .done := by cases h4; rfl
  subst hb
  have h3 : Remote C51.toySha B (.read .pack C47.idE) B (.got x) :=
    (remote_answers C51.toySha_length B (by simp [B]) .pack C47.idE x).2.2 (by simp [B, Bucket.latest])
  exact ⟨[(_, _), (_, _), (_, _), (_, _)], B', .cons h1 (.cons h2 (.cons h3 (.cons h4 (.nil _)))), rfl, by simp⟩

example (x : Bytes) : ∃ l1 l2 fs' B', Runs Disk noFiles l1 fs' ∧ Runs (Remote C51.toySha) [] l2 B' ∧
    l1.map Prod.fst = asks x ∧ List.Forall₂ SameAnswer (l1.map Prod.snd) (l2.map Prod.snd) := by
  obtain ⟨l1, fs', r1, e1, f1⟩ := disk_runs x
  obtain ⟨l2, B', r2, e2, f2⟩ := remote_runs x
  exact ⟨l1, l2, fs', B', r1, r2, e1,
    (alike C51.toySha_length empty_disk empty_remote r1 r2 (e1.trans e2.symm) f1 f2).2⟩

/-- Two versions at Backblaze, and the one that is read. -/
example : Bucket.latest [⟨[1], 8, [5]⟩, ⟨[2], 9, [6]⟩, ⟨[1], 7, [4]⟩] [1] = some [5] ∧
    Bucket.table [⟨[1], 8, [5, 5]⟩, ⟨[2], 9, [6]⟩, ⟨[1], 7, [4]⟩] = [([1], ⟨.upload, some 2⟩), ([2], ⟨.upload, some 1⟩)] := by
  decide +kernel

/-- A program is killed when half of a pack is written to a disk: there is no pack. -/
example : ∃ fs', DiskCut noFiles (.write .pack C47.idE [1, 2]) fs' ∧ fs'.names (tempName (Stores.at_ .pack C47.idE) [97]) ≠ none ∧
    (HoldsDisk fs' empty ∨ HoldsDisk fs' ((Ask.write .pack C47.idE [1, 2]).after empty)) := by
  let job : Job := ⟨.copy, Stores.at_ .pack C47.idE, tempName (Stores.at_ .pack C47.idE) [97], [1, 2]⟩
  let s1 : State Unit := ⟨write (setName noFiles job.temp (some 0)) 0 [], Files.at_ (fun _ => .ready) () (.writing 0 [])⟩
  have hp : Puts noFiles .pack C47.idE [1, 2] job := ⟨by simp [job], rfl, rfl, ⟨[97], by decide, rfl⟩, rfl, fun _ h => by cases h⟩
  have hc : Comes job noFiles s1 := Relation.ReflTransGen.refl.tail (.create _ () 0 rfl rfl rfl (fun _ h => by cases h))
  have hd : DiskCut noFiles (.write .pack C47.idE [1, 2]) s1.fs := .write _ _ _ _ job s1 hp hc
  exact ⟨s1.fs, hd, by simp [s1, job, write, setName], disk_cut empty_disk hd⟩

end Backpak.C98
