#!/usr/bin/env python3
"""Regenerate lean/Verif.lean from the modules under lean/Verif."""
import glob, os
root = os.path.dirname(os.path.dirname(os.path.abspath(__file__)))
ms = sorted(f[len(root)+6:-5].replace("/", ".") for f in glob.glob(f"{root}/lean/Verif/**/*.lean", recursive=True))
open(f"{root}/lean/Verif.lean", "w").write("".join(f"import {m}\n" for m in ms))
