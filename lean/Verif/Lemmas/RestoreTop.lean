import Verif.Spec.Restore
import Verif.Lemmas.Listing
import Verif.Lemmas.ForestWalk

/-!
# What a restore starts from
-/

namespace Backpak

open Spec

variable {Id : Type} [LinearOrder Id] {C : Codec Id} {R : Repo Id} {cut : Bytes → Nat} {look : Look}
  {dangling : Path → Bool} {args : RestoreArgs} {s : Snapshot Id} {d2 : Dir Bytes} {fs : Fs} {F2 : Forest Id}

/-- The files of a forest's trees, of which something is known. -/
theorem held_recorded {PF : List Id → Bytes → Prop} {Q : List Id → Prop} {F : Forest Id}
    (hQ : ∀ id u n cs md, F.get? id = some u → (n, (⟨.file cs, md⟩ : Node Id)) ∈ u → Q cs)
    {t : Tree Id} {d : Dir Bytes} (h : HeldIn PF F t d) (ht : ∀ n cs md, (n, (⟨.file cs, md⟩ : Node Id)) ∈ t → Q cs) :
    HeldIn (fun cs x => PF cs x ∧ Q cs) F t d := by
  induction h with
  | nil => exact .nil
  | @file n cs md t x d h1 _ ih =>
    exact .file ⟨h1, ht n cs md (by simp)⟩ (ih (fun n cs md h => ht n cs md (List.mem_cons_of_mem _ h)))
  | link _ ih => exact .link (ih (fun n cs md h => ht n cs md (List.mem_cons_of_mem _ h)))
  | dir h0 _ _ ih1 ih2 =>
    exact .dir h0 (ih1 (fun n cs md h => hQ _ _ n cs md h0 h)) (ih2 (fun n cs md h => ht n cs md (List.mem_cons_of_mem _ h)))

theorem loaded_known (hF : Loaded C R F2 s.tree d2) (d : Dir Bytes) : ∃ t, F2.get? s.tree = some t ∧
    HeldIn (fun cs x => KnownFile C R cut d cs x ∧ cs.length < 2 ^ 64) F2 t d2 := by
  obtain ⟨t, h1, h2⟩ := hF.held
  have hQ : ∀ id u n cs md, F2.get? id = some u → (n, (⟨.file cs, md⟩ : Node Id)) ∈ u →
      (∃ id t n md, TreeAt C R id t ∧ (n, (⟨.file cs, md⟩ : Node Id)) ∈ t) ∧ cs.length < 2 ^ 64 := by
    intro id u n cs md hu hm
    have := ((hF.exact id u).mp hu).2
    exact ⟨⟨id, u, n, md, this, hm⟩, this.1.contents _ hm⟩
  refine ⟨t, h1, (held_recorded hQ h2 (fun n cs md h => hQ _ t n cs md h1 h)).mono ?_ (fun _ _ h => h)⟩
  exact fun cs x h => ⟨.inr ⟨h.1, h.2.1⟩, h.2.2⟩

section
variable (hS : Sound C R) (h : RestoreBut C R cut look dangling args s d2 fs) (hF : Loaded C R F2 s.tree d2)
include hS h hF

theorem target_walk {d : Dir Bytes} (pathOf : Name → Path)
    (hpl : Plain d) (hk : d.KindsOk) (hsub : SubsSorted d) (hfit : Fits d)
    (hlen : d.names.length < 2 ^ 64) (hnd : d.names.Nodup) (hf : Faithful d2 d)
    (hfile : ∀ x, HasFile x d → HasFile x (now args s look))
    (hdirs : ∀ s', SubDir s' d → SubDir s' (now args s look))
    (htop : (∀ n, child d n = child (now args s look) n) ∨ arrange d ∈ underOwnName args s look) :
    ∃ t f, forestFromFs C cut F2 pathOf (some s.tree) d = .ok (C.hash (C.encTree t), f) ∧ Serde.OkTree t ∧
      Grown C (InvolvedTree C R cut (now args s look) (underOwnName args s look)) f ∧
      f.get? (C.hash (C.encTree t)) = some t ∧
      HeldIn (KnownFile C R cut (now args s look)) f t (arrange d) := by
  obtain ⟨t2, g1, g2⟩ := loaded_known (cut := cut) hF (now args s look)
  obtain ⟨t, f, k1, k2, _, k4, k5, k6⟩ := forest_from_fs (cut := cut)
    (M := InvolvedTree C R cut (now args s look) (underOwnName args s look))
    (PF := KnownFile C R cut (now args s look)) h.trees (hF.nodesOk hS h.holds h.kinds2) h.contract
    (pathOf := pathOf) (root := some s.tree) hpl hk hsub hfit hlen
    (reuse_of_faithful d _ d2 (fun t ht => by
      have : t = t2 := by simpa [g1] using ht.symm
      rw [this]; exact g2) hf)
    (fun x hx => .inl ⟨hfile x hx, rfl⟩)
    (by
      rintro s' hs' u hu hb
      refine .inr ⟨s', ?_, hu, hb⟩
      rcases hs' with hs' | rfl
      · exact .inl (hdirs s' hs')
      · rcases htop with ht | ht
        · exact .inr (.inl ⟨sorted_arrange hsub, fun n => by rw [child_arrange hnd]; exact ht n⟩)
        · exact .inr (.inr ht)) hnd
  exact ⟨t, f, k1, k2, k4, k5, k6⟩

end

/-! ## Places -/

theorem fileName_eq {p : Path} {n : Name} (h : fileName p = some n) : n = lastName p ∧ n ≠ [] ∧ n ≠ [46, 46] := by
  unfold fileName at h
  split at h
  · cases h
  · rename_i m hm
    split at h
    · cases h
    · rename_i hne
      cases h
      rw [not_or] at hne
      exact ⟨by simp [lastName, hm], hne⟩

theorem fileName_some {p : Path} (h : fileName p ≠ none) : fileName p = some (lastName p) := by
  cases hf : fileName p with
  | none => exact absurd hf h
  | some n => rw [(fileName_eq hf).1]

theorem lastName_append (p : Path) (n : Name) : lastName (p ++ [n]) = n := by simp [lastName]

theorem fileName_append {p q : Path} (h : fileName p ≠ none) : fileName (q ++ [lastName p]) = some (lastName p) := by
  obtain ⟨_, h2, h3⟩ := fileName_eq (fileName_some h)
  unfold fileName
  rw [List.getLast?_append]
  simp [h2, h3]

theorem gather_ok (l : List Path) (h : ∀ p ∈ l, fileName p ≠ none ∧ look p ≠ none) :
    gather look l = .ok (listing (l.map (fun p => (lastName p, look p)))) := by
  induction l with
  | nil => rfl
  | cons p l ih =>
    obtain ⟨h1, h2⟩ := h p (by simp)
    unfold gather
    rw [fileName_some h1, ih (fun q hq => h q (List.mem_cons_of_mem _ hq))]
    dsimp only
    rw [List.map_cons, listing_cons]
    cases hl : look p with
    | none => exact absurd hl h2
    | some e =>
      obtain ⟨⟨md, l⟩, sub⟩ := e
      cases l <;> rfl

theorem placesOf_ok {place : Path → Name → Path} (l : List Path) : ∀ (m : BMap Name Path), BMap.Sorted m →
    (∀ p ∈ l, fileName p ≠ none) → (l.map lastName).Nodup → (∀ p ∈ l, lastName p ∉ BMap.keys m) →
    ∃ places, placesOf place l m = .ok places ∧ BMap.Sorted places ∧ (∀ e ∈ m, e ∈ places) ∧
      ∀ p ∈ l, (lastName p, place p (lastName p)) ∈ places := by
  induction l with
  | nil => intro m hm _ _ _; exact ⟨m, rfl, hm, fun _ h => h, (fun _ h => by cases h)⟩
  | cons p l ih =>
    intro m hm hn hnd hk
    obtain ⟨hnd1, hnd2⟩ := List.nodup_cons.mp hnd
    have hkp := hk p (by simp)
    obtain ⟨places, h1, h2, h3, h4⟩ := ih (BMap.insert (lastName p) (place p (lastName p)) m) (BMap.sorted_insert hm _ _)
      (fun q hq => hn q (List.mem_cons_of_mem _ hq)) hnd2 (by
        intro q hq hmem
        rcases BMap.keys_insert_mem.mp hmem with he | hmem
        · exact hnd1 (he ▸ List.mem_map.mpr ⟨q, hq, rfl⟩)
        · exact hk q (List.mem_cons_of_mem _ hq) hmem)
    refine ⟨places, ?_, h2, ?_, ?_⟩
    · unfold placesOf
      rw [fileName_some (hn p (by simp))]
      dsimp only
      rw [if_neg (by rw [BMap.get?_eq_none_iff.mpr hkp]; simp)]
      exact h1
    · rintro ⟨k, v⟩ he
      refine h3 _ ((BMap.mem_insert_iff hm).mpr (.inr ⟨?_, he⟩))
      rintro rfl
      exact hkp (BMap.mem_keys_of_mem he)
    · intro q hq
      rcases List.mem_cons.mp hq with rfl | hq
      · exact h3 _ ((BMap.mem_insert_iff hm).mpr (.inl ⟨rfl, rfl⟩))
      · exact h4 q hq

theorem sorted_nodup {V : Type} {m : BMap Name V} (h : BMap.Sorted m) : (BMap.keys m).Nodup := BMap.Sorted.nodup h

/-! ## Renaming -/

omit [LinearOrder Id] in
theorem rel_single {PF : List Id → Bytes → Prop} {PT : Id → Tree Id → Prop} {t : Tree Id} {n : Name} {o : Option Ent2} (ho : o ≠ none)
    (h : DirRel PF PT t (single n o .nil)) : ∃ x, t = [(n, x)] ∧ ∀ m, DirRel PF PT [(m, x)] (single m o .nil) := by
  rcases o with _ | ⟨⟨md, _ | lf⟩, sub⟩
  · exact absurd rfl ho
  · simp only [single] at h
    cases h with
    | dir h1 h2 h3 => cases h3; exact ⟨_, rfl, fun m => .dir h1 h2 .nil⟩
  · simp only [single] at h
    cases h with
    | file h1 h3 => cases h3; exact ⟨_, rfl, fun m => .file h1 .nil⟩
    | link h3 => cases h3; exact ⟨_, rfl, fun m => .link .nil⟩

theorem arrange_single (n : Name) (o : Option Ent2) : arrange (single n o .nil) = single n o .nil := by
  rcases o with _ | ⟨⟨md, _ | lf⟩, sub⟩ <;> rfl

/-- Trees below a tree are there in another forest that has everything but one tree that is not below. -/
theorem held_except {PF : List Id → Bytes → Prop} {F F' : Forest Id} {bad : Id}
    (hF : ∀ id u, id ≠ bad → F.get? id = some u → F'.get? id = some u) {t : Tree Id} {d : Dir Bytes}
    (h : HeldIn PF F t d) (hb : ∀ x, Sub t x → ¬ Reaches (InForest F) x bad) : HeldIn PF F' t d := by
  have tail : ∀ {e : Name × Node Id} {t : Tree Id}, (∀ x, Sub (e :: t) x → ¬ Reaches (InForest F) x bad) →
      ∀ x, Sub t x → ¬ Reaches (InForest F) x bad := by
    rintro e t h x ⟨n, md, hm⟩
    exact h x ⟨n, md, List.mem_cons_of_mem _ hm⟩
  induction h with
  | nil => exact .nil
  | file h1 _ ih => exact .file h1 (ih (tail hb))
  | link _ ih => exact .link (ih (tail hb))
  | @dir n id md t t' sub d h0 _ _ ih1 ih2 =>
    have hid := hb id ⟨n, md, by simp⟩
    refine .dir (hF id t' (fun e => hid (e ▸ .refl)) h0) (ih1 ?_) (ih2 (tail hb))
    rintro x ⟨n', md', hm⟩ hr
    exact hid (.step (T := InForest F) h0 hm hr)

theorem rename_ok {M : Tree Id → Prop} (hM : Distinct C M) {PF : List Id → Bytes → Prop} {f : Forest Id} {t : Tree Id} {m n : Name} {o : Option Ent2}
    (ho : o ≠ none) (hg : Grown C M f) (ht : f.get? (C.hash (C.encTree t)) = some t)
    (hd : HeldIn PF f t (single m o .nil)) (hn : n.length < 2 ^ 64)
    (hM' : ∀ u, Serde.OkTree u → ByHash C PF u (single n o .nil) → M u) :
    ∃ t' f', renameTop C f (C.hash (C.encTree t)) m n = .ok (C.hash (C.encTree t'), f') ∧ Grown C M f' ∧
      f'.get? (C.hash (C.encTree t')) = some t' ∧ HeldIn PF f' t' (single n o .nil) := by
  obtain ⟨x, rfl, hx⟩ := rel_single ho hd
  obtain ⟨_, hok, _, hkd⟩ := hg.made _ _ ((grown_get hg).mp ht)
  have hok' : Serde.OkTree [(n, x)] := by
    refine ⟨by simp [BMap.Sorted, BMap.keys], hok.len, ?_, ?_, ?_⟩
    · intro p hp; rw [List.mem_singleton.mp hp]; exact hn
    · intro p hp; rw [List.mem_singleton.mp hp]; exact hok.contents (m, x) (by simp)
    · intro p hp; rw [List.mem_singleton.mp hp]; exact hok.mds (m, x) (by simp)
  have hm' : M [(n, x)] := hM' _ hok' (held_byHash hg (hx n))
  have hge : Grown C M (BMap.erase (C.hash (C.encTree [(m, x)])) f) :=
    ⟨BMap.sorted_erase hg.sorted _, fun id u hu => hg.made id u (BMap.mem_erase_iff.mp hu).2⟩
  have hgf := grown_insert hge hok' hm' (by intro e he; rw [List.mem_singleton.mp he]; exact hkd (m, x) (by simp))
  have hmem := fun id u => mem_grown_insert hM hge hm' (id := id) (w := u)
  refine ⟨[(n, x)], BMap.insert (C.hash (C.encTree [(n, x)])) [(n, x)] (BMap.erase (C.hash (C.encTree [(m, x)])) f), ?_, hgf,
    (grown_get hgf).mpr ((hmem _ _).mpr (.inr ⟨rfl, rfl⟩)), ?_⟩
  · unfold renameTop
    rw [ht]
    dsimp only
    have : BMap.get? [(m, x)] m = some x := by simp [BMap.get?]
    rw [this]
    dsimp only
    have : BMap.insert n x (BMap.erase m [(m, x)]) = [(n, x)] := by simp [BMap.erase, BMap.insert]
    rw [this]
  · refine held_except (F := f) (bad := C.hash (C.encTree [(m, x)])) ?_ (hx n) ?_
    · intro id u hne hu
      exact (grown_get hgf).mpr ((hmem _ _).mpr (.inl (BMap.mem_erase_iff.mpr ⟨hne, (grown_get hg).mp hu⟩)))
    · rintro y ⟨n', md, hy⟩ hr
      have hgr : Grounded (InForest f) (C.hash (C.encTree [(m, x)])) := .mk ht (dirRel_grounded hd)
      refine hgr.acyclic (T := InForest f) (fun _ _ _ => InForest.one) ⟨_, y, ht, ⟨m, md, ?_⟩, hr⟩
      have := List.mem_singleton.mp hy
      rw [Prod.mk.injEq] at this
      rw [← this.2]
      exact List.mem_singleton.mpr rfl

end Backpak
