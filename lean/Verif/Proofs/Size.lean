import Verif.Proofs.Minimal
import Verif.SpecSize
/-!
# The size of the streams of `sw842_compress`
-/

namespace Lib842.Size
open Spec

/-- Are all indices of a template available? -/
def feas (f : Nat → Nat → Bool) : List Action → Nat → Bool
  | [], _ => true
  | .D n :: as, o => feas f as (o + n)
  | .I n :: as, o => f n o && feas f as (o + n)

theorem args_feas (T : Tab) (x : List Byte) (pos : Nat) (as : List Action) (o : Nat) :
    (T.args x as (pos + o)).isSome = feas (fun n o => (T.find x n (pos + o)).isSome) as o := by
  induction as generalizing o with
  | nil => rfl
  | cons a as ih =>
    have := ih (o + actionSize a)
    rw [← Nat.add_assoc] at this
    rw [Tab.args]
    cases a with
    | D n =>
      simp only [feas, Tab.arg]
      rw [show o + n = o + actionSize (.D n) from rfl, ← this]
      cases T.args x as (pos + o + actionSize (.D n)) <;> rfl
    | I n =>
      simp only [feas, Tab.arg]
      rw [show o + n = o + actionSize (.I n) from rfl, ← this]
      cases T.find x n (pos + o) <;> cases T.args x as (pos + o + actionSize (.I n)) <;> rfl

/-- The first template in the order of trial that is available -/
def pick (f : Nat → Nat → Bool) : Nat := (tryOrder.find? fun c => feas f (templates[c]?.getD []) 0).getD 0

theorem find_bits {T : Tab} {x : List Byte} {pos : Nat} (h : T.Rep x pos) (h8 : pos % 8 = 0) (hpos : pos + 8 ≤ x.length) (l : List Nat)
    (hl : ∀ c ∈ l, c < 26) :
    (l.findSome? (T.tryCode x pos)).map (fun op => op.bits.length) =
      (l.find? fun c => feas (fun n o => (T.find x n (pos + o)).isSome) (templates[c]?.getD []) 0).map codeBits := by
  induction l with
  | nil => rfl
  | cons c l ih =>
    have ih := ih fun c hc => hl c (List.mem_cons_of_mem _ hc)
    have hc := hl c List.mem_cons_self
    have ht : ∃ acts, templates[c]? = some acts := by
      exact ⟨_, List.getElem?_eq_getElem (show c < templates.length from hc)⟩
    obtain ⟨acts, ht⟩ := ht
    have hf := args_feas T x pos acts 0
    obtain ⟨_, hok, hsum, -⟩ := templates_ok _ _ ht
    have hcode := codeBits_of ht
    rw [List.findSome?_cons, List.find?_cons, ht, Option.getD_some, ← hf]
    unfold Tab.tryCode
    rw [ht]
    simp only
    cases hargs : T.args x acts (pos + 0) with
    | none =>
      exact ih
    | some args =>
      obtain ⟨hm, -⟩ := h.args h8 hpos hok (b := 0) (by omega) hargs
      have hlen := template_bits_length c args
      rw [hm] at hlen
      simp only [Option.map_some, Option.isSome_some]
      rw [hlen, hcode]

theorem blockOp_bits {T : Tab} {x : List Byte} {pos : Nat} (h : T.Rep x pos) (h8 : pos % 8 = 0) (hpos : pos + 8 ≤ x.length) :
    (T.blockOp x pos).bits.length = codeBits (pick fun n o => (T.find x n (pos + o)).isSome) := by
  have h0 : ∃ op, tryOrder.findSome? (T.tryCode x pos) = some op := by
    rw [← Option.isSome_iff_exists, List.findSome?_isSome_iff]
    exact ⟨0, by decide, by simp [Tab.tryCode, templates, Tab.args, Tab.arg]⟩
  obtain ⟨op, hop⟩ := h0
  have hb := find_bits h h8 hpos tryOrder (by decide)
  unfold Tab.blockOp pick
  rw [hop] at hb ⊢
  cases hf : tryOrder.find? fun c => feas (fun n o => (T.find x n (pos + o)).isSome) (templates[c]?.getD []) 0 with
  | none => rw [hf] at hb; cases hb
  | some c =>
    rw [hf] at hb
    simpa using hb

def seven (a8 a4 b4 c0 c2 c4 c6 : Bool) (n o : Nat) : Bool :=
  if n = 8 then a8 else if n = 4 then (if o = 0 then a4 else b4) else if o = 0 then c0 else if o = 2 then c2 else if o = 4 then c4 else c6

theorem feas_seven (f : Nat → Nat → Bool) : ∀ c ∈ tryOrder, feas f (templates[c]?.getD []) 0 =
    feas (seven (f 8 0) (f 4 0) (f 4 4) (f 2 0) (f 2 2) (f 2 4) (f 2 6)) (templates[c]?.getD []) 0 := by
  intro c hc
  simp only [tryOrder, List.mem_cons, List.not_mem_nil, or_false] at hc
  rcases hc with rfl | rfl | rfl | rfl | rfl | rfl | rfl | rfl | rfl | rfl | rfl | rfl | rfl | rfl | rfl | rfl | rfl | rfl | rfl | rfl | rfl | rfl |
    rfl | rfl | rfl | rfl <;> rfl

theorem pick_seven (f : Nat → Nat → Bool) : pick f = pick (seven (f 8 0) (f 4 0) (f 4 4) (f 2 0) (f 2 2) (f 2 4) (f 2 6)) := by
  unfold pick
  have h := feas_seven f
  suffices hs : ∀ l : List Nat, (∀ c ∈ l, c ∈ tryOrder) → l.find? (fun c => feas f (templates[c]?.getD []) 0) =
      l.find? fun c => feas (seven (f 8 0) (f 4 0) (f 4 4) (f 2 0) (f 2 2) (f 2 4) (f 2 6)) (templates[c]?.getD []) 0 by
    rw [hs tryOrder fun _ hc => hc]
  intro l hl
  induction l with
  | nil => rfl
  | cons c l ih =>
    rw [List.find?_cons, List.find?_cons, h c (hl c List.mem_cons_self), ih fun c hc => hl c (List.mem_cons_of_mem _ hc)]

theorem pick_table : ∀ a8 a4 b4 c0 c2 c4 c6 : Bool, codeBits (pick (seven a8 a4 b4 c0 c2 c4 c6)) =
    if a8 then 13 else 5 + (if a4 then 9 else (if c0 then 8 else 16) + (if c2 then 8 else 16)) +
      (if b4 then 9 else (if c4 then 8 else 16) + (if c6 then 8 else 16)) := by
  decide +kernel

/-- What the dictionaries find is what the data says. -/
theorem find_seen {T : Tab} {x : List Byte} {pos : Nat} (h : T.Rep x pos) (h8 : pos % 8 = 0) (hpos : pos ≤ x.length) {n : Nat} (hn : SizeOk n)
    {o : Nat} (ho : o + n ≤ x.length) : (T.find x n o).isSome = seen x pos n o := by
  have hn0 : 0 < n := by rcases hn with rfl | rfl | rfl <;> decide
  have h88 : 8 * (pos / 8) = pos := by omega
  have hring : ringSize n = n * 2 ^ indexBits n := rfl
  cases hf : T.find x n o with
  | some i =>
    obtain ⟨hi, r, ⟨h1, h2, h3⟩, hs⟩ := h.find h8 hpos hn ho hf
    rw [h88] at h2 h3
    have hk : n * (r / n) = r := by
      have : r % n = 0 := by
        rw [← Nat.mod_mod_of_dvd r (Dvd.intro _ hring.symm), h1, Nat.mul_mod_left]
      have := Nat.div_add_mod r n
      omega
    symm
    show seen x pos n o = true
    unfold seen
    rw [List.any_eq_true]
    refine ⟨r / n, ?_, ?_⟩
    · rw [List.mem_range]
      have : n * (r / n + 1) ≤ pos := by rw [Nat.mul_add, hk]; omega
      exact (Nat.le_div_iff_mul_le hn0).2 (by rw [Nat.mul_comm]; exact this)
    · rw [decide_eq_true_iff, hk]
      exact ⟨h3, hs⟩
  | none =>
    symm
    show seen x pos n o = false
    rw [Bool.eq_false_iff]
    intro hseen
    unfold seen at hseen
    rw [List.any_eq_true] at hseen
    obtain ⟨k, hk, hd⟩ := hseen
    rw [List.mem_range] at hk
    rw [decide_eq_true_iff] at hd
    have hk1 : n * (k + 1) ≤ pos := by
      have := (Nat.le_div_iff_mul_le hn0).1 (show k + 1 ≤ pos / n from hk)
      rw [Nat.mul_comm]; exact this
    have hm : n * k % ringSize n = k % 2 ^ indexBits n * n := by
      rw [hring, Nat.mul_mod_mul_left, Nat.mul_comm]
    refine h.find_none h8 hn hf (i := k % 2 ^ indexBits n) (Nat.mod_lt _ (Nat.two_pow_pos _)) (r := n * k) ⟨hm, ?_, ?_⟩ hd.2
    · rw [h88]; rw [Nat.mul_add] at hk1; omega
    · rw [h88]; exact hd.1

theorem tmplCost_eq {x : List Byte} {i : Nat} (hi : 8 * i + 8 ≤ x.length) (hz : zeroGroup x i = false) : tmplCost x i = groupBits x i := by
  have h := tabAt_rep x i
  have h8 : 8 * i % 8 = 0 := by omega
  have hs : ∀ n, SizeOk n → ∀ o, o + n ≤ 8 → ((tabAt x i).find x n (8 * i + o)).isSome = seen x (8 * i) n (8 * i + o) :=
    fun n hn o ho => find_seen h h8 (by omega) hn (by omega)
  unfold tmplCost
  rw [blockOp_bits h h8 hi, pick_seven, pick_table]
  rw [hs 8 (by simp [SizeOk]) 0 (by omega), hs 4 (by simp [SizeOk]) 0 (by omega), hs 4 (by simp [SizeOk]) 4 (by omega),
    hs 2 (by simp [SizeOk]) 0 (by omega), hs 2 (by simp [SizeOk]) 2 (by omega), hs 2 (by simp [SizeOk]) 4 (by omega),
    hs 2 (by simp [SizeOk]) 6 (by omega)]
  unfold groupBits halfBits wordBits
  rw [hz]
  rfl

theorem swCost_eq {x : List Byte} {i : Nat} (hi : 8 * i + 8 ≤ x.length) :
    swCost x i = if reps x i = 0 then groupBits x i else if reps x i % 64 = 1 then 11 else 0 := by
  unfold swCost firstCost swRep
  cases hz : zeroGroup x i with
  | false => rw [tmplCost_eq hi hz]; rfl
  | true => simp [groupBits, hz]

theorem streamBits_length (x : List Byte) : (streamBits x).length = sizeBits x := by
  have h := refLoop_cost x (x.length / 8) 0
  simp only [psum, rcAt, tabAt, lastAt, Nat.zero_add, Nat.mul_zero] at h
  have h : ((refLoop x (x.length / 8) .init 0 none 0).flatMap Op.bits).length = psum (swCost x) (x.length / 8) := by simpa using h
  have hp : psum (swCost x) (x.length / 8) = _ := psum_congr fun i hi => swCost_eq (x := x) (i := i) (by omega)
  have ht : ((shortOps x).flatMap Op.bits).length = if x.length % 8 = 0 then 0 else 8 + 8 * (x.length % 8) := by
    unfold shortOps
    by_cases h0 : x.length % 8 = 0
    · rw [if_pos h0, if_pos h0]; rfl
    · rw [if_neg h0, if_neg h0]
      simp [Op.bits]
      omega
  have htr : (trailer x).length = 37 := by simp [trailer]
  unfold streamBits refOps sizeBits
  rw [List.flatMap_append, List.length_append, List.length_append, ht, htr, psum_list, h, hp]

end Lib842.Size
