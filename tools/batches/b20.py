MUTS=[
dict(id="m502",file="Vars/History.lean",old="  | .order => (.ok (.nat t.order), t)",new="  | .order => (.ok (.nat t.order), { t with vars := [] })",defn="TObject.call",edit="reading order forgets the variables",claim="C150"),
dict(id="m508",file="Misc/Save.lean",old="  (List.range s.length).reverse.find? fun",new="  (List.range s.length).find? fun",defn="rfind",edit="first instead of last occurrence",claim="C151"),
dict(id="m509",file="Misc/Save.lean",old="      | some sep => sep + 1\n    if start",new="      | some sep => sep\n    if start",defn="splitext",edit="the slash counts as part of the file name",claim="C151"),
dict(id="m510",file="Misc/Save.lean",old="  saveplot p.fig (ext.drop 1) basename",new="  saveplot p.fig ext basename",defn="IPlotter.save",edit="dot kept in the format",claim="C151"),
dict(id="m511",file="Misc/Save.lean",old="  saveplot p.fig (ext.drop 1) basename",new="  saveplot p.fig (ext.drop 1) name",defn="IPlotter.save",edit="extension doubled in the file name",claim="C151"),
dict(id="m512",file="Misc/Save.lean",old="    if start ≤ dot ∧ (List.range' start (dot - start)).any (fun i => p[i]? ≠ some '.') then",new="    if start ≤ dot then",defn="splitext",edit="leading dots not skipped",claim="C151"),
]
