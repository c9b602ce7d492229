import Verif.Model.Align
/-!
# Vocabulary for alignment (C93)
-/

namespace Lib842

/-- Two implementations that announce the same alignments and do the same for pointers with the required one; they may do different
things, including something undefined, for other pointers. -/
structure AgreeAligned (I J : Impl) : Prop where
  req : I.requiredAlignment = J.requiredAlignment
  pref : I.preferredAlignment = J.preferredAlignment
  compress : ∀ a b, I.requiredAlignment ∣ a → I.requiredAlignment ∣ b → I.compress a b = J.compress a b
  decompress : ∀ a b, I.requiredAlignment ∣ a → I.requiredAlignment ∣ b → I.decompress a b = J.decompress a b
  compressChunked : ∀ a b n is os, I.requiredAlignment ∣ a → I.requiredAlignment ∣ b → I.requiredAlignment ∣ is →
    I.requiredAlignment ∣ os → I.compressChunked a b n is os = J.compressChunked a b n is os
  decompressChunked : ∀ a b n is os, I.requiredAlignment ∣ a → I.requiredAlignment ∣ b → I.requiredAlignment ∣ is →
    I.requiredAlignment ∣ os → I.decompressChunked a b n is os = J.decompressChunked a b n is os

/-- An address that `aligned_alloc(preferred_alignment, ...)` may return -/
def Allocated (I : Impl) (a : Nat) : Prop := I.preferredAlignment ∣ a

end Lib842
