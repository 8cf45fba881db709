import Verif.Spec.Intact
import Verif.Lemmas.Forest
import Verif.Lemmas.Source
import Verif.Props.C07
import Verif.Props.C17
import Verif.Props.C18
import Verif.Props.C50

/-!
# Loading trees from files that can be anything
-/

namespace Backpak.Intact

open Spec

section

variable {Id : Type} [LinearOrder Id]

/-- Everything in `a` is in `b`. -/
def Within (a b : Forest Id) : Prop := ∀ id t, a.get? id = some t → b.get? id = some t

/-- `appendLoop_sound` and where the bytes come from. -/
theorem appendLoop_infix {H : Bytes → Id} {decTree : Bytes → Option (Tree Id × Bytes)}
    (hd : Local decTree) (m : Manifest Id) (s : Stream) (f f' : BMap Id (Tree Id))
    (hsort : BMap.Sorted f) (h : Pack.appendLoop H decTree m s f = .ok f') :
    BMap.Sorted f' ∧ Within f f' ∧ ∀ id t, f'.get? id = some t → f.get? id = some t ∨
      ∃ bs, H bs = id ∧ decTree bs = some (t, []) ∧ bs <:+: s.data ∧ ∃ e ∈ m, e.id = id := by
  induction m generalizing s f with
  | nil =>
    simp only [Pack.appendLoop, Except.ok.injEq] at h
    subst h
    exact ⟨hsort, fun _ _ h => h, fun _ _ h => .inl h⟩
  | cons e m ih =>
    unfold Pack.appendLoop at h
    split at h
    · split at h
      · simp at h
      · rename_i bs s' hs
        split at h
        · obtain ⟨h1, h2, h3⟩ := ih _ _ hsort h
          refine ⟨h1, h2, fun id t hg => ?_⟩
          rcases h3 id t hg with h | ⟨x, a1, a2, a3, e', he', a4⟩
          · exact .inl h
          · refine .inr ⟨x, a1, a2, ?_, e', List.mem_cons_of_mem _ he', a4⟩
            rw [(Stream.take_ok hs).1]
            exact a3.trans (List.suffix_append _ _).isInfix
        · simp at h
    · rename_i hk
      simp only [ne_eq, not_or, Decidable.not_not] at hk
      split at h
      · simp at h
      · rename_i t' used s' ht
        split at h
        · rename_i hh
          obtain ⟨h1, h2, h3⟩ := ih _ _ (BMap.sorted_insert hsort _ _) h
          obtain ⟨hd1, hd2⟩ := Stream.item_ok hd ht
          refine ⟨h1, fun id t hg => h2 id t ?_, fun id t hg => ?_⟩
          · rw [BMap.get?_insert hsort, if_neg]
            · exact hg
            · rintro rfl
              rw [hg] at hk
              simp at hk
          · rcases h3 id t hg with h | ⟨x, a1, a2, a3, e', he', a4⟩
            · rw [BMap.get?_insert hsort] at h
              split at h
              · rename_i hid
                simp only [Option.some.injEq] at h
                subst h
                refine .inr ⟨used, by rw [← hh, hid], ?_, ?_, e, by simp, hid⟩
                · have := hd2 []
                  rwa [List.append_nil] at this
                · rw [hd1]; exact (List.prefix_append _ _).isInfix
              · exact .inl h
            · refine .inr ⟨x, a1, a2, ?_, e', List.mem_cons_of_mem _ he', a4⟩
              rw [hd1]
              exact a3.trans (List.suffix_append _ _).isInfix
        · simp at h

/-- Everything in `c` is as `T` says. -/
def Good (T : Id → Tree Id → Prop) (c : Forest Id) : Prop :=
  BMap.Sorted c ∧ ∀ id t, c.get? id = some t → T id t

/-- Reading a tree keeps to `T`. -/
def Keeps (C : Codec Id) (src : Source Id) (T : Id → Tree Id → Prop) : Prop :=
  ∀ c c' id t, Good T c → treeRead C src c id = .ok (t, c') → Good T c' ∧ Within c c' ∧ c'.get? id = some t

variable {C : Codec Id} {src : Source Id} {T : Id → Tree Id → Prop}

theorem appendTree_good (hk : Keeps C src T) (n : Nat) (stack : List Id) (id : Id)
    (s s' : Forest Id × Forest Id) (hs : BMap.Sorted s.1) (hw : Within s.1 s.2) (hg : Good T s.2)
    (h : appendTree C src n stack id s = .ok s') :
    BMap.Sorted s'.1 ∧ Within s'.1 s'.2 ∧ Good T s'.2 ∧ Within s.1 s'.1 ∧
      Grounded (InForest s'.1) id := by
  induction n generalizing stack id s s' with
  | zero => simp [appendTree] at h
  | succ n ih =>
    obtain ⟨forest, cache⟩ := s
    unfold appendTree at h
    split at h
    · simp at h
    · split at h
      · simp at h
      · rename_i t cache' ht
        obtain ⟨k1, k2, k3⟩ := hk _ _ _ _ hg ht
        have loop : ∀ (l : Tree Id) (s s' : Forest Id × Forest Id), BMap.Sorted s.1 →
            Within s.1 s.2 → Good T s.2 →
            forSubtrees (appendTree C src n (id :: stack)) l s = .ok s' →
            BMap.Sorted s'.1 ∧ Within s'.1 s'.2 ∧ Good T s'.2 ∧ Within s.1 s'.1 ∧
            ∀ x, Sub l x → Grounded (InForest s'.1) x := by
          intro l
          induction l with
          | nil =>
            intro s s' a1 a2 a3 h
            simp only [forSubtrees, Except.ok.injEq] at h
            subst h
            refine ⟨a1, a2, a3, fun _ _ h => h, ?_⟩
            rintro x ⟨n, md, hm⟩
            simp at hm
          | cons e l ihl =>
            intro s s' a1 a2 a3 h
            obtain ⟨m, c, md⟩ := e
            cases c with
            | file cs =>
              obtain ⟨b1, b2, b3, b4, b5⟩ := ihl s s' a1 a2 a3 h
              refine ⟨b1, b2, b3, b4, fun x hx => b5 x ?_⟩
              obtain ⟨n', md', hm⟩ := hx
              simp only [List.mem_cons, Prod.mk.injEq, Node.mk.injEq, reduceCtorEq, false_and,
                and_false, false_or] at hm
              exact ⟨n', md', hm⟩
            | link tg =>
              obtain ⟨b1, b2, b3, b4, b5⟩ := ihl s s' a1 a2 a3 h
              refine ⟨b1, b2, b3, b4, fun x hx => b5 x ?_⟩
              obtain ⟨n', md', hm⟩ := hx
              simp only [List.mem_cons, Prod.mk.injEq, Node.mk.injEq, reduceCtorEq, false_and,
                and_false, false_or] at hm
              exact ⟨n', md', hm⟩
            | dir sub =>
              unfold forSubtrees at h
              split at h
              · simp at h
              · rename_i s1 hs1
                obtain ⟨c1, c2, c3, c4, c5⟩ := ih (id :: stack) sub s s1 a1 a2 a3 hs1
                obtain ⟨b1, b2, b3, b4, b5⟩ := ihl s1 s' c1 c2 c3 h
                refine ⟨b1, b2, b3, fun i t h => b4 i t (c4 i t h), fun x hx => ?_⟩
                obtain ⟨n', md', hm⟩ := hx
                rcases List.mem_cons.mp hm with hm | hm
                · simp only [Prod.mk.injEq, Node.mk.injEq, Contents.dir.injEq] at hm
                  rw [hm.2.1]
                  exact c5.mono b4
                · exact b5 x ⟨n', md', hm⟩
        have hin : Within (BMap.insert id t forest) cache' := by
          intro i u hi
          rw [BMap.get?_insert hs] at hi
          split at hi
          · rename_i he
            simp only [Option.some.injEq] at hi
            subst hi
            rw [← he]; exact k3
          · exact k2 i u (hw i u hi)
        obtain ⟨b1, b2, b3, b4, b5⟩ := loop t _ s' (BMap.sorted_insert hs _ _) hin k1 h
        refine ⟨b1, b2, b3, fun i u hi => b4 i u ?_, .mk (t := t) (b4 id t ?_) b5⟩
        · rw [BMap.get?_insert hs]
          split
          · rename_i he
            subst he
            rw [← k3]
            exact k2 _ _ (hw _ _ hi)
          · exact hi
        · dsimp only
          rw [BMap.get?_insert hs, if_pos rfl]

end

section

open Check

variable {Z : Zstd} {H : Bytes → ObjectId} {O : Serde.OldTime} {R : Stored}

theorem getFile_ok {l : List (ObjectId × Bytes)} {id : ObjectId} {f : Bytes}
    (h : getFile l id = .ok f) : (id, f) ∈ l := by
  unfold getFile at h
  split at h
  · simp at h
  · rename_i e he
    simp only [Except.ok.injEq] at h
    have h1 := List.find?_some he
    have h2 := List.mem_of_find?_eq_some he
    simp only [decide_eq_true_eq] at h1
    rw [← h1, ← h]
    exact h2

theorem loadIndex_ok {id : ObjectId} {f : Bytes} {x : Index ObjectId}
    (h : loadIndex Z H id f = .ok x) : ∃ rest used, f = ascii "MKBAKIDX1" ++ rest ∧
      used <+: (Z.stream rest).data ∧ Serde.decIndex used = some (x, []) ∧ H used = id := by
  unfold loadIndex at h
  split at h
  · simp at h
  · split at h
    · simp at h
    · rename_i hm
      dsimp only at h
      split at h
      · simp at h
      · rename_i x' used s' hi
        split at h
        · rename_i hid
          simp only [Except.ok.injEq] at h
          subst h
          obtain ⟨h1, h2⟩ := Stream.item_ok (Serde.read_local _) hi
          refine ⟨f.drop 9, used, ?_, ⟨_, h1.symm⟩, ?_, hid.symm⟩
          · rw [show ascii "MKBAKIDX1" = f.take 9 from (not_not.mp hm).symm, List.take_append_drop]
          · have := h2 []
            rwa [List.append_nil] at this
        · simp at h

theorem openIndex_ok {ix : Index ObjectId} (h : openIndex Z H R = .ok ix) :
    ∃ files, IndexFiles Z H R files ∧ (files.map Prod.fst).Nodup ∧
      Index.buildMaster (C17.loads files) = .ok ix := by
  unfold openIndex at h
  obtain ⟨files, h1, h2⟩ := (C17.succeeds_iff _).mp ⟨ix, h⟩
  refine ⟨files, ?_, h2, h1 ▸ h⟩
  clear h h2
  unfold IndexFiles
  generalize R.indexes = l at h1
  induction l generalizing files with
  | nil =>
    cases files with
    | nil => exact .nil
    | cons _ _ => simp [C17.loads] at h1
  | cons e l ih =>
    cases files with
    | nil => simp [C17.loads] at h1
    | cons x files =>
      simp only [C17.loads, List.map_cons, List.cons.injEq, Prod.mk.injEq] at h1
      refine .cons ⟨h1.1.1.symm, loadIndex_ok h1.1.2⟩ (ih files h1.2)

theorem openPack_ok {p : ObjectId} {s : Stream} (h : openPack Z R p = .ok s) :
    ∃ f rest, (p, f) ∈ R.packs ∧ f = ascii "MKBAKPAK1" ++ rest ∧ s = Z.stream rest := by
  unfold openPack at h
  split at h
  · simp at h
  · rename_i f hf
    split at h
    · simp at h
    · rename_i rest hr
      simp only [Except.ok.injEq] at h
      exact ⟨f, rest, getFile_ok hf, Pack.checkMagic_ok hr, h.symm⟩

theorem loadSnapshot_ok {id : ObjectId} {f : Bytes} {s : Snapshot ObjectId}
    (h : loadSnapshot H O id f = .ok s) : SnapshotIs H O id f s := by
  unfold loadSnapshot at h
  split at h
  · simp at h
  · rename_i s' rest hr
    dsimp only at h
    split at h
    · rename_i hid
      simp only [Except.ok.injEq] at h
      subst h
      unfold Serde.readSnapshotFile at hr
      split at hr
      · rename_i hm
        split at hr
        · rename_i v r hv
          have key : ∀ {f' : Cbor → Option (Snapshot ObjectId)} {m : Bytes}, m.length = 9 → f = m ++ r →
              Serde.read f' r = some (s', rest) →
              ∃ used rest, f = m ++ used ++ rest ∧ Serde.read f' used = some (s', []) ∧ H used = id := by
            intro f' m hm hf hr
            obtain ⟨c, _, hc, hd⟩ := Serde.read_local _ _ _ _ hr
            have h9 : f.drop 9 = r := by rw [hf, ← hm, List.drop_left]
            rw [h9, hc, List.length_append, Nat.add_sub_cancel, List.take_left' rfl] at hid
            refine ⟨c, rest, by rw [hf, hc, List.append_assoc], ?_, hid.symm⟩
            have := hd []
            rwa [List.append_nil] at this
          split at hr
          · rename_i h1
            obtain ⟨u, r', h3, h4, h5⟩ := key (m := ascii "MKBAKSNP1") (by decide)
              (by rw [← List.take_append_drop 8 f, hm, hv, h1]; rfl) hr
            exact ⟨u, r', .inr ⟨h3, h4⟩, h5⟩
          split at hr
          · rename_i h2
            obtain ⟨u, r', h3, h4, h5⟩ := key (m := ascii "MKBAKSNP2") (by decide)
              (by rw [← List.take_append_drop 8 f, hm, hv, h2]; rfl) hr
            exact ⟨u, r', .inl ⟨h3, h4⟩, h5⟩
          · simp at hr
        · simp at hr
      · simp at hr
    · simp at h

variable {ix : Index ObjectId} {bm : BMap ObjectId ObjectId}

theorem keeps (hi : openIndex Z H R = .ok ix) (hb : Index.blobToPack ix = .ok bm) :
    Keeps (Codec.real H) ⟨ix, bm, openPack Z R⟩ (TreeFound Z H R) := by
  obtain ⟨files, hf, hn, hm⟩ := openIndex_ok hi
  intro c c' id t hg h
  unfold treeRead at h
  split at h
  · rename_i t' ht
    simp only [Except.ok.injEq, Prod.mk.injEq] at h
    obtain ⟨rfl, rfl⟩ := h
    exact ⟨hg, fun _ _ h => h, ht⟩
  · split at h
    · simp at h
    · rename_i p hp
      split at h
      · simp at h
      · rename_i s hs
        split at h
        · simp at h
        · rename_i m hmf
          split at h
          · simp at h
          · rename_i c2 hc2
            split at h
            · simp at h
            · rename_i t2 ht2
              simp only [Except.ok.injEq, Prod.mk.injEq] at h
              obtain ⟨rfl, rfl⟩ := h
              obtain ⟨h1, h2, h3⟩ := appendLoop_infix (Serde.read_local _) m s c c2 hg.1 hc2
              refine ⟨⟨h1, fun i u hu => ?_⟩, h2, ht2⟩
              rcases h3 i u hu with h | ⟨bs, a1, a2, a3, e, he, a4⟩
              · exact hg.2 i u h
              · obtain ⟨f, rest, b1, b2, rfl⟩ := openPack_ok hs
                exact .inr ⟨bs, ⟨a1, files, p, m, f, rest, hf,
                  C17.packs_sound files hn ix hm p m (BMap.mem_of_get? hmf), ⟨e, he, a4⟩, b1, b2, a3⟩, a2⟩

/-- A tree loaded into a forest is whole if the chunks of the forest are. -/
theorem whole_of_grounded {P : ObjectId → Prop} {f : Forest ObjectId} {id : ObjectId}
    (hg : Grounded (InForest f) id) (hT : ∀ id t, f.get? id = some t → TreeFound Z H R id t)
    (hP : ∀ c ∈ f.flatMap (fun e => chunksInTree e.2), P c) : Whole Z H P R id := by
  induction hg with
  | @mk id t ht _ ih =>
    refine .mk (hT id t ht) (fun n sub md h => ih sub ⟨n, md, h⟩) (fun n cs md h c hc => hP c ?_)
    refine List.mem_flatMap.mpr ⟨(id, t), BMap.mem_of_get? ht, ?_⟩
    exact List.mem_flatMap.mpr ⟨(n, ⟨.file cs, md⟩), h, hc⟩

theorem chunksOf_sound (hi : openIndex Z H R = .ok ix) (hb : Index.blobToPack ix = .ok bm)
    (l : List (ObjectId × Bytes)) (cache : Forest ObjectId) (hc : Good (TreeFound Z H R) cache)
    (cs : List ObjectId) (h : chunksOf H O ⟨ix, bm, openPack Z R⟩ l cache = .ok cs)
    (P : ObjectId → Prop) (hP : ∀ c ∈ cs, P c) :
    ∀ e ∈ l, ∃ s, SnapshotIs H O e.1 e.2 s ∧ Whole Z H P R s.tree := by
  induction l generalizing cache cs with
  | nil => simp
  | cons e l ih =>
    obtain ⟨id, f⟩ := e
    unfold chunksOf at h
    split at h
    · simp at h
    · rename_i s hs
      split at h
      · simp at h
      · rename_i forest cache' hf
        split at h
        · simp at h
        · rename_i cs' hcs
          simp only [Except.ok.injEq] at h
          subst h
          obtain ⟨_, h2, h3, _, h5⟩ := appendTree_good (keeps hi hb) _ [] s.tree ([], cache) (forest, cache')
            (by simp [BMap.Sorted, BMap.keys]) (by simp [Within, BMap.get?]) hc hf
          intro e' he'
          rcases List.mem_cons.mp he' with rfl | he'
          · exact ⟨s, loadSnapshot_ok hs, whole_of_grounded h5 (fun i t ht => h3.2 i t (h2 i t ht))
              (fun c hc => hP c (List.mem_append_left _ hc))⟩
          · exact ih cache' h3 cs' hcs (fun c hc => hP c (List.mem_append_right _ hc)) e' he'

theorem newTreeCache_good : Good (TreeFound Z H R) (newTreeCache (Codec.real H)) := by
  refine ⟨by simp [newTreeCache, BMap.Sorted, BMap.keys], fun id t h => ?_⟩
  simp only [newTreeCache, BMap.get?_cons] at h
  split at h
  · rename_i he
    simp only [Option.some.injEq] at h
    exact .inl ⟨he.symm, h.symm⟩
  · simp [BMap.get?] at h

end

end Backpak.Intact
